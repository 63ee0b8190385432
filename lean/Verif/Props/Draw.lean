import Verif.Model.Draw
import Verif.Props.Gauss
import Verif.Props.ViewMapper
/-! # C187: rays drawn as dots; C188: plots; C55 with masks of any kind -/
namespace Verif.Map
open Verif.Geo Verif.Py

/-! ### which pixels are written -/

theorem wrapIdx_in {n : ℕ} {i : ℤ} (h0 : 0 ≤ i) (h1 : i < n) : wrapIdx n i = some i.toNat := by
  unfold wrapIdx
  rw [if_pos ⟨h0, h1⟩]

theorem cellAt_in {α : Type} {im : Img α} {p : ℤ × ℤ} (h : inBounds im p = true) : cellAt im p = .ok (p.1.toNat, p.2.toNat) := by
  unfold inBounds at h
  simp only [Bool.and_eq_true, decide_eq_true_eq] at h
  unfold cellAt
  rw [wrapIdx_in h.1.1 h.1.2, wrapIdx_in h.2.1 h.2.2]

theorem cells_in {α : Type} {im : Img α} (ps : List (ℤ × ℤ)) (h : ∀ p ∈ ps, inBounds im p = true) :
    ps.mapM (cellAt im) = .ok (ps.map fun p => (p.1.toNat, p.2.toNat)) := by
  induction ps with
  | nil => rfl
  | cons p ps ih =>
    rw [List.mapM_cons, cellAt_in (h p List.mem_cons_self), ih fun q hq => h q (List.mem_cons_of_mem _ hq)]
    rfl

theorem mem_cells {α : Type} {im : Img α} {ps : List (ℤ × ℤ)} (h : ∀ p ∈ ps, inBounds im p = true) (i j : ℕ) :
    (i, j) ∈ ps.map (fun p => (p.1.toNat, p.2.toNat)) ↔ ((i : ℤ), (j : ℤ)) ∈ ps := by
  rw [List.mem_map]
  constructor
  · rintro ⟨p, hp, he⟩
    have hb := h p hp
    unfold inBounds at hb
    simp only [Bool.and_eq_true, decide_eq_true_eq] at hb
    injection he with e1 e2
    have : p = ((i : ℤ), (j : ℤ)) := Prod.ext (by simp only; omega) (by simp only; omega)
    rwa [← this]
  · intro hp
    exact ⟨_, hp, by simp⟩

theorem paint_putAll {α : Type} (im : Img α) (ps : List (ℤ × ℤ)) (h : ∀ p ∈ ps, inBounds im p = true) (c : α) :
    paint im (ps.map fun p => (p.1.toNat, p.2.toNat)) c = im.putAll ps c := by
  have hn : (im.putAll ps c).n = im.n := (putAll_at ps c im 0 0).1
  have hm : (im.putAll ps c).m = im.m := (putAll_at ps c im 0 0).2.1
  have ha : (paint im (ps.map fun p => (p.1.toNat, p.2.toNat)) c).at_ = (im.putAll ps c).at_ := by
    funext i j
    obtain ⟨-, -, h1, h2⟩ := putAll_at ps c im i j
    unfold paint
    simp only
    split_ifs with hij
    · exact (h1 ((mem_cells h i j).1 hij)).symm
    · exact (h2 fun hc => hij ((mem_cells h i j).2 hc)).symm
  cases hp : im.putAll ps c with
  | mk n m a =>
    rw [hp] at hn hm ha
    simp only at hn hm ha
    unfold paint at ha ⊢
    simp only at ha
    rw [hn, hm, ha]

/-- **C55** without growing, and with a mask that lists pixels of the image, the exact index arithmetic of numpy paints what
`C55_angular` describes -/
theorem C55_exact_partial (m : View) (im : Img ℝ) (vs : List V3) (mask : Option (List (ℤ × ℤ))) (c : ℝ)
    (hm : ∀ l, mask = some l → ∀ p ∈ l, inBounds im p = true) : m.draw im vs mask true c 0 = .ok (m.addVecs im vs mask c) := by
  have hin : ∀ p ∈ (m.drawPixels im.m vs).filter (drawMask im mask), inBounds im p = true := by
    intro p hp
    have h2 := (List.mem_filter.1 hp).2
    cases hmask : mask with
    | none => rw [hmask] at h2; exact h2
    | some l => rw [hmask] at h2; exact hm l hmask p (by simpa [drawMask] using h2)
  unfold View.draw View.drawn View.addVecs
  rw [if_pos rfl, cells_in _ hin]
  simp only [Except.map]
  rw [paint_putAll _ _ hin]
  unfold grown
  rw [if_neg (lt_irrefl _)]

/-- **C55** the planar mapper -/
theorem C55_exact_planar (m : Planar) (im : Img ℝ) (vs : List V3) (c : ℝ) : m.draw im vs c 0 = .ok (m.addVecs im vs c) := by
  have hin : ∀ p ∈ (vs.map (m.ray2pixel (im.n, im.m))).filter (inBounds im), inBounds im p = true :=
    fun p hp => (List.mem_filter.1 hp).2
  unfold Planar.draw Planar.addVecs addPixels
  split_ifs with h
  · rfl
  · rw [cells_in _ hin]
    simp only [Except.map]
    rw [paint_putAll _ _ hin]
    unfold grown
    rw [if_neg (lt_irrefl _)]

/-- what a user expects of a mask with pixels outside of the image: they are not drawn -/
def C55_mask_statement : Prop := ∀ (im : Img ℝ) (ps l : List (ℤ × ℤ)) (c : ℝ), (∀ p ∈ l, inBounds im p = false) →
  ((ps.filter (drawMask im (some l))).mapM (cellAt im)).map (fun qs => paint im qs c) = .ok im

/-- **C55** false: a pixel one to the left of the image is drawn at its right edge -/
theorem C55_mask_refuted : ¬ C55_mask_statement := by
  intro h
  have h1 := h ⟨3, 3, fun _ _ => 0⟩ [(0, -1)] [(0, -1)] 1 (by simp [inBounds])
  have h2 : ([((0 : ℤ), (-1 : ℤ))].filter (drawMask (⟨3, 3, fun _ _ => 0⟩ : Img ℝ) (some [(0, -1)]))).mapM
      (cellAt (⟨3, 3, fun _ _ => 0⟩ : Img ℝ)) = .ok [(0, 2)] := by
    simp [drawMask, List.mapM_cons, cellAt, wrapIdx]
  rw [h2] at h1
  simp only [Except.map] at h1
  injection h1 with h1
  have := congrArg (fun im : Img ℝ => im.at_ 0 2) h1
  simp [paint] at this

/-! ### growing -/

theorem window_nat (g : ℕ) : window g = 2 * g + 1 := by
  unfold window
  rw [show (g : ℝ) * 2 + 1 = ((2 * g + 1 : ℕ) : ℝ) by push_cast; ring, Nat.floor_natCast]

theorem box_inside {n g p : ℕ} (f : ℕ → ℝ) (h1 : g ≤ p) (h2 : p + g < n) :
    box n (2 * g + 1) f p = (∑ t ∈ Finset.range (2 * g + 1), f (p - g + t)) / (2 * g + 1 : ℕ) := by
  unfold box
  split_ifs with h
  · have : g = 0 := by omega
    subst this
    simp
  · congr 1
    refine Finset.sum_congr rfl fun t ht => ?_
    have := Finset.mem_range.1 ht
    congr 1
    rw [show (p : ℤ) - ((2 * g + 1) / 2 : ℕ) + t = ((p - g + t : ℕ) : ℤ) by omega, Resamp.refl_of_lt (by omega)]

/-- **C187** growing replaces each pixel away from the border by the sum of its neighbours, itself included -/
theorem C187_window (g : ℕ) (hg : 0 < g) (im : Img ℝ) (i j : ℕ) (hi : g ≤ i) (hi' : i + g < im.n) (hj : g ≤ j) (hj' : j + g < im.m) :
    (grown g im).at_ i j = ∑ a ∈ Finset.range (2 * g + 1), ∑ b ∈ Finset.range (2 * g + 1), im.at_ (i - g + a) (j - g + b) := by
  unfold grown
  rw [if_pos (by exact_mod_cast hg), window_nat]
  simp only
  rw [box_inside _ hj hj']
  simp only [box_inside _ hi hi']
  rw [Finset.sum_comm]
  have h0 : ((2 * g + 1 : ℕ) : ℝ) ≠ 0 := by positivity
  rw [div_eq_iff h0, Finset.sum_mul]
  refine Finset.sum_congr rfl fun b _ => ?_
  rw [div_eq_iff h0, ← Finset.sum_mul, mul_assoc, sq]

theorem grown_shape (g : ℝ) (im : Img ℝ) : (grown g im).n = im.n ∧ (grown g im).m = im.m := by
  unfold grown
  split_ifs <;> exact ⟨rfl, rfl⟩

/-- the pixels of a list within `g` of a pixel, each once -/
def near (qs : List (ℕ × ℕ)) (g i j : ℕ) : Finset (ℕ × ℕ) :=
  qs.toFinset.filter fun q => (i ≤ q.1 + g ∧ q.1 ≤ i + g) ∧ (j ≤ q.2 + g ∧ q.2 ≤ j + g)

/-- The claim: rays drawn with `grow` become squares of the channel value, everything else stays. -/
def C187_statement : Prop := ∀ (g : ℕ) (im : Img ℝ) (qs : List (ℕ × ℕ)) (c : ℝ), (∀ q ∈ qs, q.1 < im.n ∧ q.2 < im.m) →
  ∀ i j, i < im.n → j < im.m →
    (grown g (paint im qs c)).at_ i j = if (near qs g i j).Nonempty then c else im.at_ i j

/-- **C187** on a dark image, away from the border, a pixel is the channel value times the number of drawn pixels around it: dots
that do not overlap are squares. Missing: overlapping dots, dots at the border, images that are not dark. -/
theorem C187_dots_partial (g : ℕ) (n m : ℕ) (qs : List (ℕ × ℕ)) (c : ℝ) (i j : ℕ) (hi : g ≤ i) (hi' : i + g < n) (hj : g ≤ j)
    (hj' : j + g < m) : (grown g (paint (dark n m) qs c)).at_ i j = (near qs g i j).card * c := by
  have hsum : ∑ a ∈ Finset.range (2 * g + 1), ∑ b ∈ Finset.range (2 * g + 1), (paint (dark n m) qs c).at_ (i - g + a) (j - g + b) =
      (near qs g i j).card * c := by
    rw [← Finset.sum_product', ← nsmul_eq_mul, ← Finset.sum_const]
    symm
    rw [← Finset.sum_filter_add_sum_filter_not (Finset.range (2 * g + 1) ×ˢ Finset.range (2 * g + 1))
      (fun x => (i - g + x.1, j - g + x.2) ∈ qs)]
    have hz : ∑ x ∈ (Finset.range (2 * g + 1) ×ˢ Finset.range (2 * g + 1)).filter (fun x => ¬ (i - g + x.1, j - g + x.2) ∈ qs),
        (paint (dark n m) qs c).at_ (i - g + x.1) (j - g + x.2) = 0 := by
      refine Finset.sum_eq_zero fun x hx => ?_
      have := (Finset.mem_filter.1 hx).2
      unfold paint dark
      simp only
      rw [if_neg this]
    rw [hz, add_zero]
    refine Finset.sum_bij' (fun q _ => (q.1 + g - i, q.2 + g - j)) (fun x _ => (i - g + x.1, j - g + x.2)) ?_ ?_ ?_ ?_ ?_
    · intro q hq
      unfold near at hq
      simp only [Finset.mem_filter, List.mem_toFinset] at hq
      simp only [Finset.mem_filter, Finset.mem_product, Finset.mem_range]
      obtain ⟨hq, ⟨a1, a2⟩, b1, b2⟩ := hq
      refine ⟨⟨by omega, by omega⟩, ?_⟩
      rw [show i - g + (q.1 + g - i) = q.1 by omega, show j - g + (q.2 + g - j) = q.2 by omega]
      exact hq
    · intro x hx
      simp only [Finset.mem_filter, Finset.mem_product, Finset.mem_range] at hx
      unfold near
      simp only [Finset.mem_filter, List.mem_toFinset]
      exact ⟨hx.2, ⟨by omega, by omega⟩, by omega, by omega⟩
    · intro q hq
      unfold near at hq
      simp only [Finset.mem_filter, List.mem_toFinset] at hq
      obtain ⟨hq, ⟨a1, a2⟩, b1, b2⟩ := hq
      apply Prod.ext <;> simp only <;> omega
    · intro x hx
      apply Prod.ext <;> simp only <;> omega
    · intro q hq
      unfold near at hq
      simp only [Finset.mem_filter, List.mem_toFinset] at hq
      obtain ⟨hq, ⟨a1, a2⟩, b1, b2⟩ := hq
      unfold paint
      simp only
      rw [show i - g + (q.1 + g - i) = q.1 by omega, show j - g + (q.2 + g - j) = q.2 by omega, if_pos hq]
  rcases Nat.eq_zero_or_pos g with rfl | hg
  · rw [← hsum]
    unfold grown
    rw [if_neg (by simp)]
    simp
  · rw [C187_window g hg _ i j hi hi' hj hj', hsum]

/-- **C187** so a dot without neighbours is a square of the channel value on black -/
theorem C187_square_partial (g : ℕ) (n m : ℕ) (qs : List (ℕ × ℕ)) (c : ℝ)
    (hfar : ∀ q ∈ qs, ∀ q' ∈ qs, q ≠ q' → 2 * g < (q.1 : ℤ) - q'.1 ∨ 2 * g < (q'.1 : ℤ) - q.1 ∨ 2 * g < (q.2 : ℤ) - q'.2 ∨ 2 * g < (q'.2 : ℤ) - q.2)
    (i j : ℕ) (hi : g ≤ i) (hi' : i + g < n) (hj : g ≤ j) (hj' : j + g < m) :
    (grown g (paint (dark n m) qs c)).at_ i j = if (near qs g i j).Nonempty then c else 0 := by
  rw [C187_dots_partial g n m qs c i j hi hi' hj hj']
  split_ifs with h
  · obtain ⟨q, hq⟩ := h
    have : near qs g i j = {q} := by
      refine Finset.eq_singleton_iff_unique_mem.2 ⟨hq, fun q' hq' => ?_⟩
      unfold near at hq hq'
      simp only [Finset.mem_filter, List.mem_toFinset] at hq hq'
      by_contra hne
      rcases hfar q' hq'.1 q hq.1 hne with h | h | h | h <;> omega
    rw [this, Finset.card_singleton]
    simp
  · rw [Finset.not_nonempty_iff_eq_empty.1 h]
    simp

/-- **C187** the light of the image is multiplied by the size of the window, whatever is drawn and wherever -/
theorem C187_total (g : ℕ) (hg : 0 < g) (im : Img ℝ) :
    ∑ i ∈ Finset.range im.n, ∑ j ∈ Finset.range im.m, (grown g im).at_ i j =
      (2 * g + 1 : ℕ) ^ 2 * ∑ i ∈ Finset.range im.n, ∑ j ∈ Finset.range im.m, im.at_ i j := by
  have hb : ∀ (n : ℕ) (f : ℕ → ℝ), ∑ p ∈ Finset.range n, box n (2 * g + 1) f p = ∑ p ∈ Finset.range n, f p := by
    intro n f
    rcases Nat.eq_zero_or_pos n with rfl | hn
    · simp
    · rw [← Gauss.box_sum hn g f]
      refine Finset.sum_congr rfl fun p _ => ?_
      unfold box
      rw [if_neg (by omega)]
      congr 1
      refine Finset.sum_congr rfl fun t _ => ?_
      congr 2
      push_cast
      ring
  unfold grown
  rw [if_pos (by exact_mod_cast hg), window_nat]
  simp only
  simp only [hb]
  rw [Finset.sum_comm]
  simp only [hb]
  rw [Finset.sum_comm, Finset.mul_sum]
  refine Finset.sum_congr rfl fun i _ => ?_
  rw [Finset.mul_sum]
  exact Finset.sum_congr rfl fun j _ => mul_comm _ _

/-- **C187** an image without dots is brightened: a uniform image by the number of pixels of the window -/
theorem C187_uniform (g : ℕ) (hg : 0 < g) (n m : ℕ) (v : ℝ) (i j : ℕ) :
    (grown g (paint ⟨n, m, fun _ _ => v⟩ [] 1)).at_ i j = (2 * g + 1 : ℕ) ^ 2 * v := by
  have hb : ∀ (n : ℕ) (c : ℝ) (p : ℕ), box n (2 * g + 1) (fun _ => c) p = c := by
    intro n c p
    unfold box
    rw [if_neg (by omega), Finset.sum_const, Finset.card_range, nsmul_eq_mul]
    field_simp
  unfold grown
  rw [if_pos (by exact_mod_cast hg), window_nat]
  unfold paint
  simp only [List.not_mem_nil, if_false, hb]
  ring

/-- **C187** false: with `grow=1` and no ray in view, what the image showed before is nine times as bright -/
theorem C187_refuted : ¬ C187_statement := by
  intro h
  have h1 := h 1 ⟨1, 1, fun _ _ => 1⟩ [] 1 (by simp) 0 0 one_pos one_pos
  rw [C187_uniform 1 one_pos] at h1
  simp [near] at h1
  norm_num at h1

/-- **C187** overlapping dots add up: where two neighbours are drawn, the pixels that both reach are twice as bright -/
theorem C187_overlap (g n m : ℕ) (hg : 0 < g) (c : ℝ) (i j : ℕ) (hi : g ≤ i) (hi' : i + g < n) (hj : g ≤ j) (hj' : j + g < m) :
    (grown g (paint (dark n m) [(i, j), (i, j + 1)] c)).at_ i j = 2 * c := by
  rw [C187_dots_partial g n m _ c i j hi hi' hj hj']
  have : near [(i, j), (i, j + 1)] g i j = {(i, j), (i, j + 1)} := by
    unfold near
    rw [Finset.filter_true_of_mem]
    · simp
    · intro q hq
      simp only [List.mem_toFinset, List.mem_cons, List.not_mem_nil, or_false] at hq
      rcases hq with rfl | rfl <;> simp only <;> omega
  rw [this, Finset.card_insert_of_notMem (by simp), Finset.card_singleton]
  norm_num

theorem box_end {n g : ℕ} (hg : 0 < g) (hn : g < n) (f : ℕ → ℝ) (hf : ∀ p, p ≠ 0 → f p = 0) :
    box n (2 * g + 1) f 0 = 2 * f 0 / (2 * g + 1 : ℕ) := by
  unfold box
  rw [if_neg (by omega)]
  congr 1
  have : ∀ t ∈ Finset.range (2 * g + 1), f (Resamp.refl n (((0 : ℕ) : ℤ) - ((2 * g + 1) / 2 : ℕ) + t)) =
      (if t = g then f 0 else 0) + (if t + 1 = g then f 0 else 0) := by
    intro t ht
    have ht := Finset.mem_range.1 ht
    rcases lt_trichotomy t g with h | h | h
    · have e : Resamp.refl n (((0 : ℕ) : ℤ) - ((2 * g + 1) / 2 : ℕ) + t) = g - t - 1 := by
        rw [show ((0 : ℕ) : ℤ) - ((2 * g + 1) / 2 : ℕ) + t = -1 - ((g - t - 1 : ℕ) : ℤ) by omega,
          Gauss.refl_mirror (by omega), Resamp.refl_of_lt (by omega)]
      rw [e, if_neg (by omega), zero_add]
      split_ifs with h1
      · rw [show g - t - 1 = 0 by omega]
      · exact hf _ (by omega)
    · subst h
      rw [if_pos rfl, if_neg (by omega), add_zero,
        show ((0 : ℕ) : ℤ) - ((2 * t + 1) / 2 : ℕ) + t = ((0 : ℕ) : ℤ) by omega, Resamp.refl_of_lt (by omega)]
    · rw [if_neg (by omega), if_neg (by omega), add_zero,
        show ((0 : ℕ) : ℤ) - ((2 * g + 1) / 2 : ℕ) + t = ((t - g : ℕ) : ℤ) by omega, Resamp.refl_of_lt (by omega)]
      exact hf _ (by omega)
  rw [Finset.sum_congr rfl this, Finset.sum_add_distrib, Finset.sum_ite_eq' , if_pos (Finset.mem_range.2 (by omega))]
  have e2 : ∑ t ∈ Finset.range (2 * g + 1), (if t + 1 = g then f 0 else 0) = f 0 := by
    rw [Finset.sum_eq_single (g - 1)]
    · rw [if_pos (by omega)]
    · intro t _ h
      rw [if_neg (by omega)]
    · intro h
      exact absurd (Finset.mem_range.2 (by omega)) h
  rw [e2]
  ring

/-- **C187** a dot in the corner is four times as bright as the others: the image is mirrored at its edges -/
theorem C187_corner (g n m : ℕ) (hg : 0 < g) (hn : g < n) (hm : g < m) (c : ℝ) :
    (grown g (paint (dark n m) [(0, 0)] c)).at_ 0 0 = 4 * c := by
  have h0 : ((2 * g + 1 : ℕ) : ℝ) ≠ 0 := by positivity
  unfold grown
  rw [if_pos (by exact_mod_cast hg), window_nat]
  unfold paint dark
  simp only
  have inner : ∀ q, box n (2 * g + 1) (fun p => (if (p, q) ∈ [(0, 0)] then c else 0) * ((2 * g + 1 : ℕ) : ℝ) ^ 2) 0 =
      if q = 0 then 2 * c * (2 * g + 1 : ℕ) else 0 := by
    intro q
    rw [box_end hg hn _ (by intro p hp; simp [hp])]
    split_ifs with hq h2 h3
    · field_simp
    · simp at hq; exact absurd hq h2
    · exact absurd (by simp [h3]) hq
    · simp
  simp only [inner]
  rw [box_end hg hm _ (by intro p hp; rw [if_neg hp]), if_pos rfl]
  field_simp
  ring

/-- **C187** what `add_vecs_to_img` of an angular mapper returns: the pixels of the rays are painted, then the image grows, even
when there are none -/
theorem C187_angular (d : V3) (hd : d ≠ V3.zero) (va : ℝ) (im : Img ℝ) (vs : List V3) (c g : ℝ) :
    ∃ qs, (View.new d va).draw im vs none true c g = .ok (grown g (paint im qs c)) ∧
      ∀ i j, (i, j) ∈ qs ↔ i < im.n ∧ j < im.m ∧ ∃ v ∈ vs, (View.new d va).ray2pixel im.m v = ((i : ℤ), (j : ℤ)) := by
  have hin : ∀ p ∈ ((View.new d va).drawPixels im.m vs).filter (inBounds im), inBounds im p = true :=
    fun p hp => (List.mem_filter.1 hp).2
  refine ⟨(((View.new d va).drawPixels im.m vs).filter (inBounds im)).map fun p => (p.1.toNat, p.2.toNat), ?_, fun i j => ?_⟩
  · unfold View.draw View.drawn
    rw [if_pos rfl]
    show ((((View.new d va).drawPixels im.m vs).filter (inBounds im)).mapM (cellAt im)).map _ = _
    rw [cells_in _ hin]
    rfl
  · rw [mem_cells hin, List.mem_filter, inBounds_iff, drawPixels_mem d hd]
    tauto

/-- **C187** the planar mapper: the same, but an image that no ray falls on is returned as it is -/
theorem C187_planar (m : Planar) (im : Img ℝ) (vs : List V3) (c g : ℝ) :
    ((∀ v ∈ vs, inBounds im (m.ray2pixel (im.n, im.m) v) = false) → m.draw im vs c g = .ok im) ∧
    ((∃ v ∈ vs, inBounds im (m.ray2pixel (im.n, im.m) v) = true) →
      ∃ qs, m.draw im vs c g = .ok (grown g (paint im qs c)) ∧
        ∀ i j, (i, j) ∈ qs ↔ i < im.n ∧ j < im.m ∧ ∃ v ∈ vs, m.ray2pixel (im.n, im.m) v = ((i : ℤ), (j : ℤ))) := by
  have hin : ∀ p ∈ (vs.map (m.ray2pixel (im.n, im.m))).filter (inBounds im), inBounds im p = true :=
    fun p hp => (List.mem_filter.1 hp).2
  unfold Planar.draw
  constructor
  · intro h
    rw [if_pos]
    rw [List.length_eq_zero_iff, List.filter_eq_nil_iff]
    intro p hp
    obtain ⟨v, hv, rfl⟩ := List.mem_map.1 hp
    rw [h v hv]
    simp
  · rintro ⟨v, hv, h⟩
    rw [if_neg, cells_in _ hin]
    · refine ⟨_, rfl, fun i j => ?_⟩
      rw [mem_cells hin, List.mem_filter, inBounds_iff, List.mem_map]
      tauto
    · rw [List.length_eq_zero_iff, List.filter_eq_nil_iff]
      intro hc
      exact hc _ (List.mem_map_of_mem hv) h

/-- two dots in an image of twelve by twelve pixels -/
example : (grown 1 (paint (dark 12 12) [(2, 3), (8, 8)] 5)).at_ 3 2 = 5 ∧ (grown 1 (paint (dark 12 12) [(2, 3), (8, 8)] 5)).at_ 5 5 = 0 := by
  have h : ∀ q ∈ [((2 : ℕ), (3 : ℕ)), (8, 8)], ∀ q' ∈ [((2 : ℕ), (3 : ℕ)), (8, 8)], q ≠ q' → 2 * (1 : ℕ) < (q.1 : ℤ) - (q'.1 : ℕ) ∨ 2 * (1 : ℕ) < (q'.1 : ℤ) - (q.1 : ℕ) ∨
      2 * (1 : ℕ) < (q.2 : ℤ) - (q'.2 : ℕ) ∨ 2 * (1 : ℕ) < (q'.2 : ℤ) - (q.2 : ℕ) := by decide
  have a := C187_square_partial 1 12 12 [(2, 3), (8, 8)] 5 h 3 2 (by norm_num) (by norm_num) (by norm_num) (by norm_num)
  have b := C187_square_partial 1 12 12 [(2, 3), (8, 8)] 5 h 5 5 (by norm_num) (by norm_num) (by norm_num) (by norm_num)
  rw [if_pos (by decide)] at a
  rw [if_neg (by decide)] at b
  exact ⟨by exact_mod_cast a, by exact_mod_cast b⟩

/-! ### images with channels -/

theorem paintPlanes_at (qs : List (ℕ × ℕ)) (g : ℝ) (ims : List (Img ℝ)) (cs : List (Option ℝ)) (out : List (Img ℝ))
    (h : paintPlanes qs g ims cs = .ok out) : out.length = ims.length ∧ ∀ (k : ℕ) (im : Img ℝ), ims[k]? = some im →
      (∀ c, cs[k]? = some (some c) → out[k]? = some (grown g (paint im qs c))) ∧
      (cs[k]? = some none → out[k]? = some (grown g im)) := by
  induction ims generalizing cs out with
  | nil =>
    cases h
    exact ⟨rfl, by simp⟩
  | cons im ims ih =>
    cases cs with
    | nil => cases h
    | cons c cs =>
      unfold paintPlanes at h
      cases hr : paintPlanes qs g ims cs with
      | error e => rw [hr] at h; cases h
      | ok rest =>
        rw [hr] at h
        injection h with h
        obtain ⟨l, ih⟩ := ih cs rest hr
        subst h
        refine ⟨by simp [l], fun k im' hk => ?_⟩
        cases k with
        | zero =>
          simp only [List.getElem?_cons_zero, Option.some.injEq] at hk ⊢
          subst hk
          constructor
          · rintro c' rfl; rfl
          · rintro rfl; rfl
        | succ k =>
          simp only [List.getElem?_cons_succ] at hk ⊢
          exact ih k im' hk

/-- **C187** an image with channels: each channel is drawn like an image of its own with its part of the colour, and `None` leaves
the rays out; too few channels are an error and further ones are ignored -/
theorem C187_channels (qs : List (ℕ × ℕ)) (g : ℝ) (ims : List (Img ℝ)) (cs : List (Option ℝ)) :
    (ims.length ≤ cs.length ↔ ∃ out, paintPlanes qs g ims cs = .ok out) ∧
    (cs.length < ims.length → paintPlanes qs g ims cs = .error .IndexError) ∧
    (paintPlanes qs g ims cs = paintPlanes qs g ims (cs.take ims.length)) := by
  induction ims generalizing cs with
  | nil => exact ⟨⟨fun _ => ⟨[], rfl⟩, fun _ => Nat.zero_le _⟩, fun h => absurd h (Nat.not_lt_zero _), rfl⟩
  | cons im ims ih =>
    cases cs with
    | nil => exact ⟨⟨fun h => absurd h (by simp), by rintro ⟨out, h⟩; cases h⟩, fun _ => rfl, rfl⟩
    | cons c cs =>
      obtain ⟨i1, i2, i3⟩ := ih cs
      refine ⟨⟨fun h => ?_, ?_⟩, fun h => ?_, ?_⟩
      · obtain ⟨out, ho⟩ := i1.1 (by simpa using h)
        unfold paintPlanes
        rw [ho]
        exact ⟨_, rfl⟩
      · rintro ⟨out, ho⟩
        unfold paintPlanes at ho
        cases hr : paintPlanes qs g ims cs with
        | error e => rw [hr] at ho; cases ho
        | ok rest =>
          have := i1.2 ⟨rest, hr⟩
          simpa using this
      · unfold paintPlanes
        rw [i2 (by simpa using h)]
        rfl
      · rw [List.length_cons, List.take_succ_cons]
        unfold paintPlanes
        rw [i3]

theorem cellAt_congr (a b : Img ℝ) (hn : a.n = b.n) (hm : a.m = b.m) : cellAt a = cellAt b := by
  funext p
  unfold cellAt
  rw [hn, hm]

theorem inBounds_congr (a b : Img ℝ) (hn : a.n = b.n) (hm : a.m = b.m) : inBounds a = inBounds b := by
  funext p
  unfold inBounds
  rw [hn, hm]

theorem drawn_congr (m : View) (a b : Img ℝ) (vs : List V3) (mask : Option (List (ℤ × ℤ))) (fisheye : Bool) (hn : a.n = b.n)
    (hm : a.m = b.m) : m.drawn a vs mask fisheye = m.drawn b vs mask fisheye := by
  unfold View.drawn
  have : drawMask a mask = drawMask b mask := by
    funext p
    unfold drawMask
    rw [inBounds_congr a b hn hm]
  rw [this, hm]

/-- **C187** angular mappers: every channel of the result is what drawing with its part of the colour into this channel alone
gives; where the colour is `None` the channel only grows -/
theorem C187_planes (m : View) (ims out : List (Img ℝ)) (vs : List V3) (mask : Option (List (ℤ × ℤ))) (fisheye : Bool)
    (cs : List (Option ℝ)) (g : ℝ) (hs : ∀ im ∈ ims, im.n = (frame ims).n ∧ im.m = (frame ims).m)
    (h : m.drawPlanes ims vs mask fisheye cs g = .ok out) : out.length = ims.length ∧
    ∀ (k : ℕ) (im o : Img ℝ), ims[k]? = some im → out[k]? = some o →
      (∀ c, cs[k]? = some (some c) → m.draw im vs mask fisheye c g = .ok o) ∧ (cs[k]? = some none → o = grown g im) := by
  unfold View.drawPlanes at h
  split_ifs at h with ha
  · obtain ⟨hl, hp⟩ := paintPlanes_at _ _ _ _ _ h
    refine ⟨hl, fun k im o hk ho => ⟨fun c hc => ?_, fun hc => ?_⟩⟩
    · exfalso
      have hlt : k < ims.length := (List.getElem?_eq_some_iff.1 hk).1
      have := List.all_eq_true.1 ha (some c) (List.mem_of_getElem? (i := k) (by rw [List.getElem?_take_of_lt hlt]; exact hc))
      simp at this
    · have := (hp k im hk).2 hc
      rw [ho] at this
      exact Option.some.inj this
  · cases hq : (m.drawn (frame ims) vs mask fisheye).mapM (cellAt (frame ims)) with
    | error e => rw [hq] at h; cases h
    | ok qs =>
      rw [hq] at h
      obtain ⟨hl, hp⟩ := paintPlanes_at _ _ _ _ _ h
      refine ⟨hl, fun k im o hk ho => ⟨fun c hc => ?_, fun hc => ?_⟩⟩
      · obtain ⟨e1, e2⟩ := hs im (List.mem_of_getElem? hk)
        have := (hp k im hk).1 c hc
        rw [ho] at this
        unfold View.draw
        rw [drawn_congr m im (frame ims) vs mask fisheye e1 e2, cellAt_congr im (frame ims) e1 e2, hq, Option.some.inj this]
        rfl
      · have := (hp k im hk).2 hc
        rw [ho] at this
        exact Option.some.inj this

/-- **C187** planar mappers: the same, with one part of the colour for all channels or one for each; any other number of parts is an
error when there is something to draw -/
theorem C187_planes_planar (m : Planar) (ims : List (Img ℝ)) (vs : List V3) (cs : List ℝ) (g : ℝ)
    (hs : ∀ im ∈ ims, im.n = (frame ims).n ∧ im.m = (frame ims).m) :
    (∀ out, m.drawPlanes ims vs cs g = .ok out → out.length = ims.length ∧
      ∀ (k : ℕ) (im o : Img ℝ) (c : ℝ), ims[k]? = some im → out[k]? = some o →
        (cs = [c] ∨ cs.length = ims.length ∧ cs[k]? = some c) → m.draw im vs c g = .ok o) ∧
    ((∃ v ∈ vs, inBounds (frame ims) (m.ray2pixel ((frame ims).n, (frame ims).m) v) = true) → cs.length ≠ ims.length →
      cs.length ≠ 1 → m.drawPlanes ims vs cs g = .error .ValueError) := by
  refine ⟨fun out h => ?_, fun ⟨v, hv, hb⟩ h1 h2 => ?_⟩
  · unfold Planar.drawPlanes at h
    split_ifs at h with h0 hc h1
    · cases h
      refine ⟨rfl, fun k im o c hk ho _ => ?_⟩
      obtain ⟨e1, e2⟩ := hs im (List.mem_of_getElem? hk)
      unfold Planar.draw
      rw [e1, e2, inBounds_congr im (frame ims) e1 e2, if_pos h0]
      rw [hk] at ho
      rw [Option.some.inj ho]
    all_goals
      cases hq : ((vs.map (m.ray2pixel ((frame ims).n, (frame ims).m))).filter (inBounds (frame ims))).mapM (cellAt (frame ims)) with
      | error e => rw [hq] at h; cases h
      | ok qs =>
        rw [hq] at h
        obtain ⟨hl, hp⟩ := paintPlanes_at _ _ _ _ _ h
        refine ⟨hl, fun k im o c hk ho hcs => ?_⟩
        obtain ⟨e1, e2⟩ := hs im (List.mem_of_getElem? hk)
        have hlt : k < ims.length := (List.getElem?_eq_some_iff.1 hk).1
        have := (hp k im hk).1 c (by
          rcases hcs with rfl | ⟨h3, h4⟩
          · first
            | exact absurd rfl h1
            | simp [hlt]
          · first
            | (rw [List.getElem?_map, h4]; rfl)
            | (have hone : k = 0 := by omega
               subst hone
               obtain ⟨d, rfl⟩ := List.length_eq_one_iff.1 h1
               simp at h4
               subst h4
               simp [hlt]))
        rw [ho] at this
        unfold Planar.draw
        rw [e1, e2, inBounds_congr im (frame ims) e1 e2, if_neg h0, cellAt_congr im (frame ims) e1 e2, hq, Option.some.inj this]
        rfl
  · unfold Planar.drawPlanes
    rw [if_neg, if_neg (by tauto)]
    rw [List.length_eq_zero_iff, List.filter_eq_nil_iff]
    intro h
    exact h _ (List.mem_map_of_mem hv) hb

/-! ### C188: plots -/

/-- The claim: a ray of the view is seen in the plot. -/
def C188_statement : Prop := ∀ (d : V3) (va : ℝ) (v : V3), Clear d → v.normSq = 1 → (va = 360 ∨ (View.new d va).inView 0 v) →
  ∀ (res : ℕ), 0 < res → ∃ im, (View.new d va).plotImg [v] res 1 1 = .ok im ∧ ∃ i j, im.at_ i j ≠ 0

theorem plot_ok (d : V3) (va : ℝ) (vs : List V3) (res : ℕ) (c g : ℝ) :
    (View.new d va).plotImg vs res c g = .ok (grown g (paint (dark res res)
      ((((View.new d va).drawPixels res vs).filter (inBounds (dark res res))).map fun p => (p.1.toNat, p.2.toNat)) c)) := by
  unfold View.plotImg View.draw View.drawn
  rw [if_pos rfl, cells_in]
  · rfl
  · intro p hp
    exact (List.mem_filter.1 hp).2

theorem paint_dark_nil (n m : ℕ) (c : ℝ) : paint (dark n m) [] c = dark n m := by
  unfold paint dark
  simp

theorem grown_dark (g : ℝ) (n m i j : ℕ) : (grown g (dark n m)).at_ i j = 0 := by
  unfold grown dark
  split_ifs
  · simp [box]
  · rfl

/-- **C188** the plot of a 360 degree view has no second half: rays behind the view direction are missing from it -/
theorem C188_back (d : V3) (h : Clear d) (vs : List V3) (hv : ∀ v ∈ vs, v.normSq = 1 ∧ (norm d).dot v < 0) (res : ℕ) (c g : ℝ) :
    ∃ im, (View.new d 360).plotImg vs res c g = .ok im ∧ ∀ i j, im.at_ i j = 0 := by
  rw [plot_ok]
  refine ⟨_, rfl, fun i j => ?_⟩
  have hnil : ((View.new d 360).drawPixels res vs).filter (inBounds (dark res res)) = [] := by
    rw [List.filter_eq_nil_iff]
    intro p hp
    obtain ⟨v, hvm, he⟩ := (drawPixels_mem d h.1 360 res vs p).1 hp
    obtain ⟨h1, h2⟩ := hv v hvm
    have hd := (C54_one_half_partial d h v h1).2 h2
    have hx : 1 ≤ ((View.new d 360).xyz2vxy v).1 := by
      nlinarith [sq_nonneg (((View.new d 360).xyz2vxy v).2 - 1 / 2)]
    have : (res : ℤ) ≤ p.1 := by
      rw [← he]
      unfold View.ray2pixel
      simp only
      rw [Int.le_floor]
      push_cast
      have : (0 : ℝ) ≤ res := Nat.cast_nonneg _
      nlinarith
    unfold inBounds dark
    simp only [Bool.and_eq_true, decide_eq_true_eq]
    omega
  rw [hnil, List.map_nil, paint_dark_nil]
  exact grown_dark g res res i j

/-- **C188** false for 360 degree views -/
theorem C188_refuted : ¬ C188_statement := by
  intro h
  have hc := clear_example.1
  have hu : (⟨0, -1, 0⟩ : V3).normSq = 1 := by unfold V3.normSq; norm_num
  obtain ⟨im, h1, i, j, h2⟩ := h ⟨0, 1, 0⟩ 360 ⟨0, -1, 0⟩ hc hu (Or.inl rfl) 1 one_pos
  obtain ⟨im', h3, h4⟩ := C188_back ⟨0, 1, 0⟩ hc [⟨0, -1, 0⟩] (by
    intro v hv
    rw [List.mem_singleton] at hv
    subst hv
    refine ⟨hu, ?_⟩
    unfold Geo.norm V3.dot V3.divS V3.len V3.normSq
    norm_num) 1 1 1
  rw [h1] at h3
  injection h3 with h3
  subst h3
  exact h2 (h4 i j)

/-- growing takes no light from a pixel -/
theorem box_ge {n s : ℕ} (f : ℕ → ℝ) (hf : ∀ p, 0 ≤ f p) {p : ℕ} (hp : p < n) (hs : 1 ≤ s) : f p ≤ box n s f p * s := by
  unfold box
  split_ifs with h
  · have : s = 1 := by omega
    subst this
    simp
  · rw [div_mul_cancel₀ _ (by positivity)]
    have := Finset.single_le_sum (s := Finset.range s) (f := fun t : ℕ => f (Resamp.refl n ((p : ℤ) - (s / 2 : ℕ) + (t : ℤ))))
      (fun t _ => hf _) (Finset.mem_range.2 (by omega : s / 2 < s))
    simp only [sub_add_cancel] at this
    rwa [Resamp.refl_of_lt hp] at this

theorem box_nonneg {n s : ℕ} (f : ℕ → ℝ) (hf : ∀ p, 0 ≤ f p) (p : ℕ) : 0 ≤ box n s f p := by
  unfold box
  split_ifs
  · exact hf p
  · exact div_nonneg (Finset.sum_nonneg fun t _ => hf _) (Nat.cast_nonneg _)

theorem grown_ge (g : ℝ) (im : Img ℝ) (h : ∀ i j, 0 ≤ im.at_ i j) {i j : ℕ} (hi : i < im.n) (hj : j < im.m) :
    im.at_ i j ≤ (grown g im).at_ i j := by
  unfold grown
  split_ifs with hg
  · have hw : 1 ≤ window g := by
      unfold window
      exact Nat.le_floor (by push_cast; linarith)
    have hw' : (0 : ℝ) < window g := by exact_mod_cast hw
    simp only
    have h1 := box_ge (n := im.n) (fun p => im.at_ p j * (window g : ℝ) ^ 2) (fun p => mul_nonneg (h _ _) (sq_nonneg _)) hi hw
    have h2 := box_ge (n := im.m) (fun q => box im.n (window g) (fun p => im.at_ p q * (window g : ℝ) ^ 2) i)
      (fun q => box_nonneg _ (fun p => mul_nonneg (h _ _) (sq_nonneg _)) i) hj hw
    have h3 : im.at_ i j * (window g : ℝ) ^ 2 ≤
        box im.m (window g) (fun q => box im.n (window g) (fun p => im.at_ p q * (window g : ℝ) ^ 2) i) j * (window g : ℝ) ^ 2 := by
      calc _ ≤ _ := h1
        _ ≤ _ := mul_le_mul_of_nonneg_right h2 hw'.le
        _ = _ := by ring
    exact le_of_mul_le_mul_right h3 (by positivity)
  · exact le_rfl

/-- **C188** a ray whose pixel is in the image is seen there, with at least the value of the channel -/
theorem C188_pixel (d : V3) (hd : d ≠ V3.zero) (va : ℝ) (vs : List V3) (res : ℕ) (c g : ℝ) (hc : 0 ≤ c) (v : V3) (hv : v ∈ vs) (i j : ℕ)
    (hi : i < res) (hj : j < res) (hp : (View.new d va).ray2pixel res v = ((i : ℤ), (j : ℤ))) :
    ∃ im, (View.new d va).plotImg vs res c g = .ok im ∧ c ≤ im.at_ i j := by
  rw [plot_ok]
  refine ⟨_, rfl, ?_⟩
  have hb : ∀ p ∈ ((View.new d va).drawPixels res vs).filter (inBounds (dark res res)), inBounds (dark res res) p = true :=
    fun p hp => (List.mem_filter.1 hp).2
  have hm : (i, j) ∈ (((View.new d va).drawPixels res vs).filter (inBounds (dark res res))).map fun p => (p.1.toNat, p.2.toNat) := by
    rw [mem_cells hb, List.mem_filter]
    exact ⟨(drawPixels_mem d hd va res vs _).2 ⟨v, hv, hp⟩, (inBounds_iff _ i j).2 ⟨hi, hj⟩⟩
  refine le_trans (le_of_eq ?_) (grown_ge g (paint (dark res res) _ c) ?_ hi hj)
  · unfold paint
    simp only
    rw [if_pos hm]
  · intro a b
    unfold paint dark
    simp only
    split_ifs
    · exact hc
    · exact le_rfl

/-- **C188** views of up to 180 degrees: every ray of the view is seen. Missing: views of 360 degrees. -/
theorem C188_seen_partial (d : V3) (h : Clear d) (va : ℝ) (h0 : 0 < va) (h1 : va ≤ 180) (vs : List V3) (v : V3) (hv : v ∈ vs)
    (hu : v.normSq = 1) (hin : (View.new d va).inView 0 v) (res : ℕ) (hres : 0 < res) (c g : ℝ) (hc : 0 ≤ c) :
    ∃ im i j, (View.new d va).plotImg vs res c g = .ok im ∧ i < res ∧ j < res ∧ c ≤ im.at_ i j := by
  have hdisk : (((View.new d va).xyz2vxy v).1 - 1 / 2) ^ 2 + (((View.new d va).xyz2vxy v).2 - 1 / 2) ^ 2 < (1 / 2) ^ 2 := by
    rw [C53_image_radius_partial d h va h0 h1 v hu]
    rw [(C86_effective_angle_partial d va h0 h1 v).1] at hin
    have hr : 0 ≤ (View.new d va).radians v := Real.arccos_nonneg _
    have hcf := (cf_bounds h0 h1).1
    have hcf0 : 0 < chordFactor va := lt_of_lt_of_le (by positivity) hcf
    have hpi := Real.pi_pos
    have : (View.new d va).radians v / (chordFactor va * va * Real.pi / 180) < 1 / 2 := by
      rw [div_lt_iff₀ (by positivity)]; linarith
    have h2 : 0 ≤ (View.new d va).radians v / (chordFactor va * va * Real.pi / 180) := by positivity
    nlinarith
  have hb : ∀ x y : ℝ, (x - 1 / 2) ^ 2 + (y - 1 / 2) ^ 2 < (1 / 2) ^ 2 → 0 ≤ x ∧ x < 1 := fun x y hxy =>
    ⟨by nlinarith [sq_nonneg (y - 1 / 2)], by nlinarith [sq_nonneg (y - 1 / 2)]⟩
  obtain ⟨x0, x1⟩ := hb _ _ hdisk
  obtain ⟨y0, y1⟩ := hb _ _ (by rw [add_comm]; exact hdisk)
  have hR : (0 : ℝ) < res := by exact_mod_cast hres
  have fl : ∀ x : ℝ, 0 ≤ x → x < 1 → ∃ i : ℕ, i < res ∧ ⌊x * res⌋ = (i : ℤ) := by
    intro x hx0 hx1
    refine ⟨⌊x * res⌋.toNat, ?_, ?_⟩
    · have a : 0 ≤ ⌊x * res⌋ := Int.floor_nonneg.2 (by positivity)
      have b : ⌊x * res⌋ < res := Int.floor_lt.2 (by push_cast; nlinarith)
      omega
    · rw [Int.toNat_of_nonneg (Int.floor_nonneg.2 (by positivity))]
  obtain ⟨i, hi, ei⟩ := fl _ x0 x1
  obtain ⟨j, hj, ej⟩ := fl _ y0 y1
  obtain ⟨im, e1, e2⟩ := C188_pixel d h.1 va vs res c g hc v hv i j hi hj (by unfold View.ray2pixel; rw [ei, ej])
  exact ⟨im, i, j, e1, hi, hj, e2⟩

/-- the view direction itself -/
example : ∃ im i j, (View.new ⟨0, 1, 0⟩ 90).plotImg [⟨0, 1, 0⟩] 10 1 1 = .ok im ∧ i < 10 ∧ j < 10 ∧ 1 ≤ im.at_ i j := by
  have hu : (⟨0, 1, 0⟩ : V3).normSq = 1 := by unfold V3.normSq; norm_num
  refine C188_seen_partial ⟨0, 1, 0⟩ clear_example.1 90 (by norm_num) (by norm_num) _ ⟨0, 1, 0⟩ (by simp) hu ?_ 10 (by norm_num) 1 1 (by norm_num)
  rw [(C86_effective_angle_partial _ 90 (by norm_num) (by norm_num) _).1]
  have h2 := (cf_bounds (va := 90) (by norm_num) (by norm_num)).1
  have hcf0 : 0 < chordFactor 90 := lt_of_lt_of_le (by positivity) h2
  have : (View.new ⟨0, 1, 0⟩ 90).radians ⟨0, 1, 0⟩ = 0 := by
    unfold View.radians Geo.radians
    rw [ctheta_unit (C50_look_partial _ clear_example.1 90).2.2 hu]
    have : (View.new ⟨0, 1, 0⟩ 90).dxyz.dot ⟨0, 1, 0⟩ = 1 := by
      show (norm1 ⟨0, 1, 0⟩).dot ⟨0, 1, 0⟩ = 1
      rw [norm1_norm clear_example.1.1]
      unfold Geo.norm V3.dot V3.divS V3.len V3.normSq
      norm_num
    rw [this, Real.arccos_one]
  rw [this]
  have := Real.pi_pos
  positivity

end Verif.Map
