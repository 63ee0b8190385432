import Verif.Model.Shapes
import Verif.Props.Command

/-! C189: which images `imgmetric` evaluates. -/

namespace Verif.Cmd
open Verif.Geo Verif.Map Verif.Py Verif.Metric Verif.Peak Real

theorem gridRows_length {α : Type} (n m : ℕ) (f : ℕ → ℕ → α) : (gridRows n m f).length = n * m := by
  simp [gridRows]

/-- **C189** the lengths of the arrays of `hdr2vol`: directions of both halves, solid angles of one half, values of the picture -/
theorem C189_lengths {α : Type} (v : View) (n m : ℕ) (val : ℕ → ℕ → α) :
    (vecRows v m).length = (if v.two then 2 * (m * m) else m * m) ∧ (omRows v m).length = m * m ∧
    (lumRows n m val).length = n * m := by
  refine ⟨?_, gridRows_length _ _ _, gridRows_length _ _ _⟩
  unfold vecRows
  rw [List.length_append, gridRows_length]
  split_ifs
  · rw [gridRows_length]; ring
  · simp

/-- **C189** they belong together exactly for square pictures of one half -/
theorem C189_aligned {α : Type} (v : View) (n m : ℕ) (hm : 0 < m) (val : ℕ → ℕ → α) :
    ((vecRows v m).length = (lumRows n m val).length ∧ (omRows v m).length = (lumRows n m val).length) ↔ (v.two = false ∧ n = m) := by
  obtain ⟨h1, h2, h3⟩ := C189_lengths v n m val
  rw [h1, h2, h3]
  cases v.two with
  | false =>
    simp only [Bool.false_eq_true, ↓reduceIte, and_self, true_and]
    exact ⟨fun h => (Nat.eq_of_mul_eq_mul_right hm h).symm, fun h => by rw [h]⟩
  | true =>
    simp only [↓reduceIte, Bool.true_eq_false, false_and, iff_false]
    rintro ⟨a, b⟩
    have : 0 < m * m := by positivity
    omega

/-- The claim: every picture with a view of one or both hemispheres gets its metrics. -/
def C189_statement : Prop := ∀ (fl : Str → Option ℝ) (ms : List String) (a : MetricArgs) (p : Pic) (d : V3) (va : ℝ),
  viewOf p.square = .ok (View.new d va) → (0 < va ∧ va ≤ 180 ∨ va = 360) → 1 < p.m → 0 < p.n → Unusable fl p.square →
  (∀ m ∈ ms, m ∈ msAll) → ∃ fuel vals, picMetric fl fuel ms none a p = .ok (some vals) ∧ vals.length = ms.length

theorem squareRays_vol (v : View) (m : ℕ) (val : ℕ → ℕ → ℝ) :
    squareRays v m val = ((List.finRange (m * m)).map (vol v m fun i j (_ : Fin 1) => val i j)).map asRay := by
  unfold squareRays gridRows
  rw [List.map_map]
  rfl

theorem picMetrics_square (v : View) (a : MetricArgs) (ms : List String) (fuel m : ℕ) (val : ℕ → ℕ → ℝ) (h : v.two = false) :
    picMetrics v a ms fuel m m val = greyMetrics v a ms fuel ((List.finRange (m * m)).map (vol v m fun i j (_ : Fin 1) => val i j)) := by
  unfold picMetrics greyMetrics picSet
  rw [squareRays_vol]
  cases checkMetrics msAll ms true with
  | error e => rfl
  | ok g =>
    simp only [h, Bool.false_eq_true, ↓reduceIte]
    cases build v a.opts _ fuel <;> rfl

/-- **C189** square pictures of one hemisphere: this is the `imgmetric` of C64, C107 and C108 -/
theorem C189_square_partial (fl : Str → Option ℝ) (S : ∀ n, Sorter n) (fuel : ℕ) (ms : List String) (lr : Option (Fin 3 → ℝ))
    (a : MetricArgs) (p : Pic) (hs : p.n = p.m) (hm : ∀ m ∈ ms, m ∈ msAll) (hv : ∀ v, viewOf p.square = .ok v → v.two = false) :
    picMetric fl fuel ms lr a p = imgMetric fl S fuel ms lr none a p.square := by
  have hc : needsColor ms = false := (needsColor_false ms).mpr hm
  unfold picMetric imgMetric
  cases hvw : viewOf p.square with
  | error e => rfl
  | ok v =>
    simp only [hc]
    cases weights fl p.square false lr with
    | error e => rfl
    | ok w =>
      simp only [hs, picMetrics_square _ _ _ _ _ _ (hv v hvw)]
      rfl

/-- **C189** so they get their metrics -/
theorem C189_ends_partial (fl : Str → Option ℝ) (ms : List String) (a : MetricArgs) (p : Pic) (d : V3) (va : ℝ)
    (hv : viewOf p.square = .ok (View.new d va)) (h0 : 0 < va) (h1 : va ≤ 180) (hs : p.n = p.m) (hu : Unusable fl p.square)
    (hm : ∀ m ∈ ms, m ∈ msAll) : ∃ fuel vals, picMetric fl fuel ms none a p = .ok (some vals) ∧ vals.length = ms.length := by
  obtain ⟨fuel, vals, e, l⟩ := (C64_ends (fl := fl) (S := fun _ _ l => l) (a := a) (ms := ms) h0 h1 hv).1 hu hm
  refine ⟨fuel, vals, ?_, l⟩
  rw [C189_square_partial fl (fun _ _ l => l) fuel ms none a p hs hm, e]
  intro v hv'
  rw [hv] at hv'
  obtain rfl := Except.ok.inj hv'
  simp only [View.new, decide_eq_false_iff_not]
  linarith [h1]

/-- **C189** pictures of both hemispheres with more than 100 pixels: no metric can be computed, whatever the picture shows -/
theorem C189_both (fl : Str → Option ℝ) (fuel : ℕ) (ms : List String) (lr w : Option (Fin 3 → ℝ)) (a : MetricArgs) (p : Pic) (v : View)
    (hv : viewOf p.square = .ok v) (hw : weights fl p.square false lr = .ok w) (h2 : v.two = true) (hm : 8 ≤ p.m)
    (hms : ∀ m ∈ ms, m ∈ msAll) : picMetric fl fuel ms lr a p = .error .ValueError := by
  unfold picMetric picMetrics picSet
  rw [hv]
  simp only [hw]
  rw [(C71_check msAll ms).2.2 hms true]
  have hl := (C189_lengths v 0 p.m fun _ _ => (0 : ℝ)).1
  rw [h2] at hl
  simp only [↓reduceIte] at hl
  have : (vecRows v p.m).length > 100 := by
    rw [hl]
    have := Nat.mul_le_mul hm hm
    omega
  simp [h2, this, MetricArgs.opts]

theorem collect_error {β : Type} (attr : String → Except PyErr β) (l : List String) (name : String) (h : name ∈ l)
    (he : ∀ n ∈ l, attr n = .error .ValueError ∨ attr n = .error .IndexError ∨ ∃ x, attr n = .ok x)
    (hn : attr name = .error .ValueError ∨ attr name = .error .IndexError) :
    collect attr l = .error .ValueError ∨ collect attr l = .error .IndexError := by
  induction l with
  | nil => simp at h
  | cons n ns ih =>
    unfold collect
    rcases he n (by simp) with e | e | ⟨x, e⟩
    · rw [e]; exact Or.inl rfl
    · rw [e]; exact Or.inr rfl
    · rw [e]
      have hne : name ≠ n := by
        rintro rfl
        rw [e] at hn
        rcases hn with hn | hn <;> cases hn
      have := ih ((List.mem_cons.1 h).resolve_left hne) (fun m hm => he m (List.mem_cons_of_mem _ hm))
      rcases this with e2 | e2
      · rw [show (Except.ok x).bind (fun v => (collect attr ns).map (v :: ·)) = (collect attr ns).map (x :: ·) from rfl, e2]
        exact Or.inl rfl
      · rw [show (Except.ok x).bind (fun v => (collect attr ns).map (v :: ·)) = (collect attr ns).map (x :: ·) from rfl, e2]
        exact Or.inr rfl

/-- what can be had without pairing directions, solid angles and luminances -/
def loners : List String := ["maxlum", "avgraylum", "view_area", "density", "threshold", "avglum", "gcr", "loggcr"]

theorem uneven_kinds (v : View) (o : Opts) (om lum : List ℝ) (name : String) (h : name ∈ msAll) :
    unevenAttr v o om lum name = .error .ValueError ∨ unevenAttr v o om lum name = .error .IndexError ∨
      ∃ x, unevenAttr v o om lum name = .ok x := by
  unfold unevenAttr
  cases loneAttr o om lum name with
  | some x => exact Or.inr (Or.inr ⟨x, rfl⟩)
  | none =>
    simp only
    split_ifs with h1 h2
    · exact Or.inr (Or.inl rfl)
    · refine Or.inr (Or.inr ?_)
      have := h2.1
      simp only [dirless, List.mem_cons, List.not_mem_nil, or_false] at this
      rcases this with rfl | rfl | rfl <;> exact ⟨_, rfl⟩
    · exact Or.inl rfl

theorem uneven_fails (v : View) (o : Opts) (om lum : List ℝ) (name : String) (h : name ∈ msAll) (hl : name ∉ loners) :
    unevenAttr v o om lum name = .error .ValueError ∨ unevenAttr v o om lum name = .error .IndexError := by
  simp only [loners, List.mem_cons, List.not_mem_nil, or_false, not_or] at hl
  obtain ⟨a1, a2, a3, a4, a5, a6, a7, a8⟩ := hl
  have hn : loneAttr o om lum name = none := by
    unfold loneAttr
    simp [a1, a2, a3, a4, a5]
  unfold unevenAttr
  rw [hn]
  simp only
  split_ifs with h1 h2
  · exact Or.inr rfl
  · have := h2.1
    simp [dirless, a6, a7, a8] at this
  · exact Or.inl rfl

/-- **C189** smaller pictures of both hemispheres: every list of metrics that asks for one of directions, solid angles and luminances
together fails -/
theorem C189_both_small (fl : Str → Option ℝ) (fuel : ℕ) (ms : List String) (lr w : Option (Fin 3 → ℝ)) (a : MetricArgs) (p : Pic)
    (v : View) (hv : viewOf p.square = .ok v) (hw : weights fl p.square false lr = .ok w) (h2 : v.two = true)
    (hms : ∀ m ∈ ms, m ∈ msAll) (name : String) (hn : name ∈ ms) (hl : name ∉ loners) :
    picMetric fl fuel ms lr a p = .error .ValueError ∨ picMetric fl fuel ms lr a p = .error .IndexError := by
  unfold picMetric picMetrics picSet
  rw [hv]
  simp only [hw]
  rw [(C71_check msAll ms).2.2 hms true]
  simp only [h2, ↓reduceIte]
  split_ifs with hc
  · exact Or.inl rfl
  · simp only [call, ArrSet.attr]
    rcases collect_error (fun n => unevenAttr v a.opts (omRows v p.m) (lumRows p.n p.m fun i j => greyOf p.square w i j) n) ms name hn
      (fun n h => uneven_kinds _ _ _ _ _ (hms n h)) (uneven_fails _ _ _ _ _ (hms name hn) hl) with e | e
    · rw [show collect (ArrSet.uneven v a.opts (omRows v p.m) (lumRows p.n p.m fun i j => greyOf p.square w i j)).attr ms = _ from e]
      exact Or.inl rfl
    · rw [show collect (ArrSet.uneven v a.opts (omRows v p.m) (lumRows p.n p.m fun i j => greyOf p.square w i j)).attr ms = _ from e]
      exact Or.inr rfl

/-- **C189** pictures that are not square: no metric can be computed if there is light in the picture -/
theorem C189_rectangle (fl : Str → Option ℝ) (fuel : ℕ) (ms : List String) (lr w : Option (Fin 3 → ℝ)) (a : MetricArgs) (p : Pic)
    (v : View) (hv : viewOf p.square = .ok v) (hw : weights fl p.square false lr = .ok w) (h2 : v.two = false) (hs : p.n ≠ p.m)
    (h0 : ∀ i j, i < p.n → j < p.m → 0 ≤ greyOf p.square w i j) (i j : ℕ) (hi : i < p.n) (hj : j < p.m)
    (hl : 0 < greyOf p.square w i j) (hms : ∀ m ∈ ms, m ∈ msAll) : picMetric fl fuel ms lr a p = .error .ValueError := by
  have hq : ∀ q : Fin (p.n * p.m), (q : ℕ) / p.m < p.n ∧ (q : ℕ) % p.m < p.m := fun q =>
    ⟨Nat.div_lt_of_lt_mul (lt_of_lt_of_eq q.isLt (mul_comm _ _)), Nat.mod_lt _ (by omega)⟩
  have hpos : avg (lumRows p.n p.m fun i j => greyOf p.square w i j) > 0 := by
    have hlen : (0 : ℝ) < ((lumRows p.n p.m fun i j => greyOf p.square w i j).length : ℕ) := by
      rw [(C189_lengths v p.n p.m fun i j => greyOf p.square w i j).2.2]
      have : 0 < p.n * p.m := Nat.mul_pos (by omega) (by omega)
      exact_mod_cast this
    unfold avg
    refine div_pos ?_ hlen
    have hlt : i * p.m + j < p.n * p.m := by
      calc i * p.m + j < i * p.m + p.m := by omega
        _ = (i + 1) * p.m := by ring
        _ ≤ p.n * p.m := Nat.mul_le_mul_right _ hi
    have hmem : greyOf p.square w i j ∈ lumRows p.n p.m fun i j => greyOf p.square w i j := by
      unfold lumRows gridRows
      refine List.mem_map.2 ⟨⟨i * p.m + j, hlt⟩, List.mem_finRange _, ?_⟩
      simp only
      rw [show (i * p.m + j) / p.m = i by rw [mul_comm, Nat.mul_add_div (by omega), Nat.div_eq_of_lt hj, add_zero],
        show (i * p.m + j) % p.m = j by rw [mul_comm, Nat.mul_add_mod, Nat.mod_eq_of_lt hj]]
    refine lt_of_lt_of_le hl (List.single_le_sum ?_ _ hmem)
    intro x hx
    obtain ⟨q, -, rfl⟩ := List.mem_map.1 hx
    exact h0 _ _ (hq q).1 (hq q).2
  unfold picMetric picMetrics picSet
  rw [hv]
  simp only [hw]
  rw [(C71_check msAll ms).2.2 hms true]
  simp [h2, hs, hpos]

/-- **C189** and a dark one is given the metrics of the dark square picture of its height -/
theorem C189_dark (fl : Str → Option ℝ) (fuel : ℕ) (ms : List String) (lr w : Option (Fin 3 → ℝ)) (a : MetricArgs) (p : Pic) (v : View)
    (hv : viewOf p.square = .ok v) (hw : weights fl p.square false lr = .ok w) (h2 : v.two = false) (hs : p.n ≠ p.m)
    (h0 : ∀ i j, greyOf p.square w i j = 0) : picMetric fl fuel ms lr a p = picMetrics v a ms fuel p.m p.m fun _ _ => 0 := by
  have hz : avg (lumRows p.n p.m fun i j => greyOf p.square w i j) = 0 := by
    unfold avg lumRows gridRows
    simp [h0]
  unfold picMetric
  rw [hv]
  simp only [hw]
  unfold picMetrics picSet
  simp [h2, hs, hz]

/-- a picture of both hemispheres: eight rows, sixteen columns, uniformly bright -/
noncomputable def both : Pic := ⟨.ok (some (dfltView 360)), .ok [], 16, 8, fun _ _ => 1, fun _ _ _ => 1⟩

theorem C189_refuted : ¬ C189_statement := by
  intro h
  have hu : Unusable (fun _ => none) both.square := ⟨[], [], rfl, rfl, by simp⟩
  obtain ⟨fuel, vals, e, -⟩ := h (fun _ => none) ["illum"] ⟨179, 2000, false⟩ both ⟨0, 1, 0⟩ 360 rfl (Or.inr rfl) (by decide) (by decide) hu
    (by decide)
  rw [C189_both (fun _ => none) fuel ["illum"] none none ⟨179, 2000, false⟩ both (dfltView 360) rfl (weights_unusable hu false)
    (by simp [dfltView, View.new]) (by decide) (by decide)] at e
  cases e

/-- a bright picture of three by two pixels meets the hypotheses of `C189_rectangle` -/
example (fl : Str → Option ℝ) (fuel : ℕ) :
    picMetric fl fuel ["illum"] none ⟨179, 2000, false⟩ ⟨.ok none, .ok [], 3, 2, fun _ _ => 1, fun _ _ _ => 1⟩ = .error .ValueError :=
  C189_rectangle fl fuel ["illum"] none none _ _ (dfltView 180) rfl (weights_unusable ⟨[], [], rfl, rfl, by simp⟩ false)
    (by simp [dfltView, View.new]) (by decide) (fun _ _ _ _ => zero_le_one) 0 0 (by decide) (by decide) zero_lt_one (by decide)

end Verif.Cmd
