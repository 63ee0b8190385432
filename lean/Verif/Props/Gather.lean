import Verif.Props.Peak

/-! Secondary sources (C62, C106) -/

namespace Verif.Peak
open Verif.Geo Verif.Py Real

variable {k n : ℕ}

theorem above_idem (key : Fin n → ℝ) (t : ℝ) {l : List (Fin n)} (h : ∀ i ∈ l, t < key i) : above key t l = l := by
  unfold above
  rw [List.filter_eq_self]
  intro i hi
  simpa using h i hi

theorem mem_above {key : Fin n → ℝ} {t : ℝ} {l : List (Fin n)} {i : Fin n} : i ∈ above key t l ↔ i ∈ l ∧ t < key i := by
  unfold above; simp

theorem mem_inCone {x : Fin n → Px k} {top : Fin n} {cr : ℝ} {l : List (Fin n)} {i : Fin n} :
    i ∈ inCone x top cr l ↔ i ∈ l ∧ cr < (x top).v.dot (x i).v := by unfold inCone; simp

theorem mem_outCone {x : Fin n → Px k} {top : Fin n} {cr : ℝ} {l : List (Fin n)} {i : Fin n} :
    i ∈ outCone x top cr l ↔ i ∈ l ∧ (x top).v.dot (x i).v ≤ cr := by unfold outCone; simp

theorem cone_perm (x : Fin n → Px k) (top : Fin n) (cr : ℝ) (l : List (Fin n)) :
    l.Perm (inCone x top cr l ++ outCone x top cr l) := by
  unfold inCone outCone
  have := (List.filter_append_perm (fun i => decide (cr < (x top).v.dot (x i).v)) l).symm
  simpa only [decide_not] using this

/-- What a list of secondary sources made from the rows `l` looks like. -/
structure Grouping (w : Fin k → ℝ) (x : Fin n → Px k) (t cr : ℝ) (l : List (Fin n)) (gs : List (Group k n)) : Prop where
  /-- the groups and at most three rays left over share out the bright rays -/
  share : ∃ rest, (above (fun i => lum w (x i)) t l).Perm (gs.flatMap Group.mem ++ rest) ∧ rest.length ≤ 3
  /-- a group holds the rays in the cone of its brightest member -/
  cone : ∀ g ∈ gs, g = group x g.mem ∧ ∃ top ∈ g.mem, ∀ i ∈ g.mem, lum w (x i) ≤ lum w (x top) ∧ cr < (x top).v.dot (x i).v
  /-- brighter groups come first and have taken everything in their cone -/
  order : gs.Pairwise fun g g' => ∃ top ∈ g.mem, ∀ i ∈ g'.mem, lum w (x i) ≤ lum w (x top) ∧ (x top).v.dot (x i).v ≤ cr

theorem gather_step {S : Sorter n} (hS : SortOk S) {w : Fin k → ℝ} {x : Fin n → Px k} {t cr : ℝ}
    (hc : ∀ i, cr < (x i).v.dot (x i).v) {l rest : List (Fin n)} {top : Fin n}
    (hs : S (fun i => lum w (x i)) (above (fun i => lum w (x i)) t l) = top :: rest) :
    (outCone x top cr (top :: rest)).length < l.length ∧
    (above (fun i => lum w (x i)) t l).Perm
      (inCone x top cr (top :: rest) ++ above (fun i => lum w (x i)) t (outCone x top cr (top :: rest))) ∧
    (∀ i ∈ top :: rest, t < lum w (x i) ∧ lum w (x i) ≤ lum w (x top)) ∧ top ∈ inCone x top cr (top :: rest) := by
  obtain ⟨hp, ho⟩ := hS (fun i => lum w (x i)) (above (fun i => lum w (x i)) t l)
  rw [hs] at hp ho
  have hb : ∀ i ∈ top :: rest, t < lum w (x i) := fun i hi => (mem_above.mp (hp.mem_iff.mp hi)).2
  refine ⟨?_, ?_, fun i hi => ⟨hb i hi, ?_⟩, mem_inCone.mpr ⟨by simp, hc top⟩⟩
  · have h1 : (outCone x top cr (top :: rest)).length ≤ rest.length := by
      unfold outCone
      rw [List.filter_cons_of_neg (by simpa using hc top)]
      exact List.length_filter_le _ _
    have h2 : (top :: rest).length ≤ l.length := by
      rw [hp.length_eq]
      exact List.length_filter_le _ _
    simp only [List.length_cons] at h2
    omega
  · rw [above_idem _ _ fun i hi => hb i (mem_outCone.mp hi).1]
    exact hp.symm.trans (cone_perm x top cr _)
  · rcases List.mem_cons.mp hi with rfl | hi
    · exact le_rfl
    · exact (List.pairwise_cons.mp ho).1 i hi

/-- **C62** the recursion ends, whatever the rows, as soon as every direction lies in its own cone; the groups share out
the bright rays but for at most three -/
theorem C62_terminates {S : Sorter n} (hS : SortOk S) (w : Fin k → ℝ) (x : Fin n → Px k) (t cr : ℝ)
    (hc : ∀ i, cr < (x i).v.dot (x i).v) (l : List (Fin n)) :
    ∃ gs, (∀ fuel, l.length < fuel → gather S w x t cr fuel l = some gs) ∧ Grouping w x t cr l gs := by
  induction hm : l.length using Nat.strong_induction_on generalizing l with
  | _ m ih =>
  subst hm
  by_cases h3 : (above (fun i => lum w (x i)) t l).length > 3
  · cases hs : S (fun i => lum w (x i)) (above (fun i => lum w (x i)) t l) with
    | nil =>
      have := (hS (fun i => lum w (x i)) (above (fun i => lum w (x i)) t l)).1.length_eq
      rw [hs] at this
      simp at this
      omega
    | cons top rest =>
      obtain ⟨s1, s2, s3, s4⟩ := gather_step hS hc hs
      obtain ⟨gs, g1, ⟨r, g2, g3⟩, g4, g5⟩ := ih _ s1 (outCone x top cr (top :: rest)) rfl
      refine ⟨group x (inCone x top cr (top :: rest)) :: gs, ?_, ⟨r, ?_, g3⟩, ?_, ?_⟩
      · intro fuel hf
        obtain ⟨f, rfl⟩ := Nat.exists_eq_succ_of_ne_zero (show fuel ≠ 0 by omega)
        unfold gather
        rw [if_pos h3, hs]
        simp only
        rw [g1 f (by omega)]
        rfl
      · rw [List.flatMap_cons, List.append_assoc]
        exact s2.trans (g2.append_left _)
      · intro g hg
        rcases List.mem_cons.mp hg with rfl | hg
        · exact ⟨rfl, top, s4, fun i hi => ⟨(s3 i (mem_inCone.mp hi).1).2, (mem_inCone.mp hi).2⟩⟩
        · exact g4 g hg
      · refine List.pairwise_cons.mpr ⟨fun g hg => ⟨top, s4, fun i hi => ?_⟩, g5⟩
        have : i ∈ above (fun i => lum w (x i)) t (outCone x top cr (top :: rest)) :=
          g2.mem_iff.mpr (List.mem_append_left _ (List.mem_flatMap.mpr ⟨g, hg, hi⟩))
        have h' := mem_outCone.mp (mem_above.mp this).1
        exact ⟨(s3 i h'.1).2, h'.2⟩
  · refine ⟨[], fun fuel hf => ?_, ⟨above (fun i => lum w (x i)) t l, by simp, by omega⟩, by simp, List.Pairwise.nil⟩
    obtain ⟨f, rfl⟩ := Nat.exists_eq_succ_of_ne_zero (show fuel ≠ 0 by omega)
    unfold gather
    rw [if_neg h3]

/-- **C62** with the exception: for every input whatsoever the recursion ends, with the groups of `C62_terminates`, all of which have
solid angle, or with a ZeroDivisionError because some group has none -/
theorem C62_always {S : Sorter n} (hS : SortOk S) (w : Fin k → ℝ) (x : Fin n → Px k) (t cr : ℝ) (l : List (Fin n)) :
    (∃ gs, (∀ fuel, l.length < fuel → gatherPy S w x t cr fuel l = some (.ok gs)) ∧
      (∀ fuel, l.length < fuel → gather S w x t cr fuel l = some gs) ∧ ∀ g ∈ gs, g.o ≠ 0) ∨
    ((∀ fuel, l.length < fuel → gatherPy S w x t cr fuel l = some (.error .ZeroDivisionError)) ∧
      ∀ fuel gs, gather S w x t cr fuel l = some gs → ∃ g ∈ gs, g.o = 0) := by
  induction hm : l.length using Nat.strong_induction_on generalizing l with
  | _ m ih =>
  subst hm
  by_cases h3 : (above (fun i => lum w (x i)) t l).length > 3
  · cases hs : S (fun i => lum w (x i)) (above (fun i => lum w (x i)) t l) with
    | nil =>
      have := (hS (fun i => lum w (x i)) (above (fun i => lum w (x i)) t l)).1.length_eq
      rw [hs] at this
      simp at this
      omega
    | cons top rest =>
      have hle : (top :: rest).length ≤ l.length := by
        rw [← hs, (hS _ _).1.length_eq]
        exact List.length_filter_le _ _
      by_cases h0 : (group x (inCone x top cr (top :: rest))).o = 0
      · refine Or.inr ⟨fun fuel hf => ?_, fun fuel gs hg => ?_⟩
        · obtain ⟨f, rfl⟩ := Nat.exists_eq_succ_of_ne_zero (show fuel ≠ 0 by omega)
          unfold gatherPy
          rw [if_pos h3, hs]
          simp only
          rw [if_pos h0]
        · cases fuel with
          | zero => simp [gather] at hg
          | succ f =>
            unfold gather at hg
            rw [if_pos h3, hs] at hg
            simp only [Option.map_eq_some_iff] at hg
            obtain ⟨r, -, rfl⟩ := hg
            exact ⟨_, by simp, h0⟩
      · have hlt : (outCone x top cr (top :: rest)).length < l.length := by
          have hp := (cone_perm x top cr (top :: rest)).length_eq
          rw [List.length_append] at hp
          have : 0 < (inCone x top cr (top :: rest)).length := by
            rw [List.length_pos_iff]
            intro e
            rw [e] at h0
            simp [group] at h0
          omega
        rcases ih _ hlt (outCone x top cr (top :: rest)) rfl with ⟨gs, g1, g2, g3⟩ | ⟨g1, g2⟩
        · refine Or.inl ⟨group x (inCone x top cr (top :: rest)) :: gs, fun fuel hf => ?_, fun fuel hf => ?_, ?_⟩
          · obtain ⟨f, rfl⟩ := Nat.exists_eq_succ_of_ne_zero (show fuel ≠ 0 by omega)
            unfold gatherPy
            rw [if_pos h3, hs]
            simp only
            rw [if_neg h0, g1 f (by omega)]
            rfl
          · obtain ⟨f, rfl⟩ := Nat.exists_eq_succ_of_ne_zero (show fuel ≠ 0 by omega)
            unfold gather
            rw [if_pos h3, hs]
            simp only
            rw [g2 f (by omega)]
            rfl
          · intro g hg
            rcases List.mem_cons.1 hg with rfl | hg
            · exact h0
            · exact g3 g hg
        · refine Or.inr ⟨fun fuel hf => ?_, fun fuel gs hg => ?_⟩
          · obtain ⟨f, rfl⟩ := Nat.exists_eq_succ_of_ne_zero (show fuel ≠ 0 by omega)
            unfold gatherPy
            rw [if_pos h3, hs]
            simp only
            rw [if_neg h0, g1 f (by omega)]
            rfl
          · cases fuel with
            | zero => simp [gather] at hg
            | succ f =>
              unfold gather at hg
              rw [if_pos h3, hs] at hg
              simp only [Option.map_eq_some_iff] at hg
              obtain ⟨r, hr, rfl⟩ := hg
              obtain ⟨g, hg, h⟩ := g2 f r hr
              exact ⟨g, by simp [hg], h⟩
  · refine Or.inl ⟨[], fun fuel hf => ?_, fun fuel hf => ?_, by simp⟩
    · obtain ⟨f, rfl⟩ := Nat.exists_eq_succ_of_ne_zero (show fuel ≠ 0 by omega)
      unfold gatherPy
      rw [if_neg h3]
    · obtain ⟨f, rfl⟩ := Nat.exists_eq_succ_of_ne_zero (show fuel ≠ 0 by omega)
      unfold gather
      rw [if_neg h3]

/-- **C62** for rays that are not empty the exception does not occur -/
theorem C62_no_exception {S : Sorter n} (hS : SortOk S) (w : Fin k → ℝ) (x : Fin n → Px k) (t cr : ℝ)
    (hc : ∀ i, cr < (x i).v.dot (x i).v) (ho : ∀ i, 0 < (x i).o) (l : List (Fin n)) :
    ∃ gs, (∀ fuel, l.length < fuel → gatherPy S w x t cr fuel l = some (.ok gs)) ∧ Grouping w x t cr l gs := by
  obtain ⟨gs, h1, h2⟩ := C62_terminates hS w x t cr hc l
  have hpos : ∀ g ∈ gs, g.o ≠ 0 := by
    intro g hg
    obtain ⟨e, top, ht, -⟩ := h2.cone g hg
    have : 0 < g.o := by
      rw [e]
      unfold group
      refine List.sum_pos _ (fun y hy => ?_) ?_
      · obtain ⟨i, -, rfl⟩ := List.mem_map.mp hy
        exact ho i
      · rw [Ne, List.map_eq_nil_iff]
        exact List.ne_nil_of_mem ht
    exact this.ne'
  rcases C62_always hS w x t cr l with ⟨gs', a, b, -⟩ | ⟨-, b⟩
  · have := (b _ (Nat.lt_succ_self _)).symm.trans (h1 _ (Nat.lt_succ_self _))
    obtain rfl := Option.some.inj this
    exact ⟨gs', a, h2⟩
  · obtain ⟨g, hg, h0⟩ := b _ gs (h1 _ (Nat.lt_succ_self _))
    exact absurd h0 (hpos g hg)

theorem sum_flat {α β : Type} (f : β → ℝ) (g : α → List β) : ∀ l : List α,
    ((l.flatMap g).map f).sum = (l.map fun a => ((g a).map f).sum).sum := by
  intro l
  induction l with
  | nil => simp
  | cons a l ih => simp [List.flatMap_cons, ih]

/-- **C62** each group has a positive solid angle, all together have no more than the bright rays, and each group is
brighter than the threshold -/
theorem C62_sizes {w : Fin k → ℝ} {x : Fin n → Px k} {t cr : ℝ} {l : List (Fin n)} {gs : List (Group k n)}
    (h : Grouping w x t cr l gs) (ho : ∀ i, 0 < (x i).o) :
    (∀ g ∈ gs, 0 < g.o) ∧
    (gs.map Group.o).sum ≤ ((above (fun i => lum w (x i)) t l).map fun i => (x i).o).sum ∧
    ∀ g ∈ gs, t < ∑ j, g.c j * w j := by
  obtain ⟨r, h1, h2⟩ := h.share
  have hpos : ∀ g ∈ gs, 0 < g.o := by
    intro g hg
    obtain ⟨e, top, ht, -⟩ := h.cone g hg
    rw [e]
    unfold group
    refine List.sum_pos _ (fun y hy => ?_) ?_
    · obtain ⟨i, -, rfl⟩ := List.mem_map.mp hy
      exact ho i
    · rw [Ne, List.map_eq_nil_iff]
      exact List.ne_nil_of_mem ht
  refine ⟨hpos, ?_, ?_⟩
  · rw [(h1.map fun i => (x i).o).sum_eq, List.map_append, List.sum_append, sum_flat]
    have e : (gs.map Group.o).sum = (gs.map fun g => ((g.mem).map fun i => (x i).o).sum).sum := by
      refine congrArg List.sum (List.map_congr_left fun g hg => ?_)
      obtain ⟨e, -⟩ := h.cone g hg
      rw [e]; rfl
    rw [e]
    have : 0 ≤ (r.map fun i => (x i).o).sum := List.sum_nonneg fun y hy => by
      obtain ⟨i, -, rfl⟩ := List.mem_map.mp hy
      exact (ho i).le
    linarith
  · intro g hg
    have hp := hpos g hg
    obtain ⟨e, top, ht, -⟩ := h.cone g hg
    have hb : ∀ i ∈ g.mem, t < lum w (x i) := fun i hi =>
      (mem_above.mp (h1.mem_iff.mpr (List.mem_append_left _ (List.mem_flatMap.mpr ⟨g, hg, hi⟩)))).2
    rw [e] at hp ⊢
    unfold group at hp ⊢
    simp only at hp ⊢
    have : ∑ j, energyC x g.mem j / (g.mem.map fun i => (x i).o).sum * w j =
        energy w x g.mem / (g.mem.map fun i => (x i).o).sum := by
      rw [← sum_energyC, Finset.sum_div]
      exact Finset.sum_congr rfl fun j _ => by ring
    rw [this, lt_div_iff₀ hp]
    unfold energy
    have key := mul_lt_sum (l := g.mem.map fun i => ((x i).o, (⟨lum w (x i), 0, 0⟩ : V3)))
      (by simpa using List.ne_nil_of_mem ht) V3.x t (fun q hq => by
        obtain ⟨i, hi, rfl⟩ := List.mem_map.mp hq
        exact ⟨ho i, hb i hi⟩)
    simpa [List.map_map, Function.comp_def] using key

/-- **C62** no ray of a secondary source is part of the primary one, for cones up to a quarter of a right angle; the
search always ends -/
theorem C62_secondary {S : Sorter n} (hS : SortOk S) {p : Par k} {x : Fin n → Px k} (h : Good p x)
    (hr0 : 0 < √(p.peaka / π) * p.peakrad) (hr : √(p.peaka / π) * p.peakrad * 8 ≤ π) {s : Src k} {pc : List (Fin n)}
    (hf : findPeak S p x = .ok (some s, pc)) :
    ∃ gs, (∀ fuel, n < fuel → secondary S p x fuel = some gs) ∧ (∀ g ∈ gs, 0 < g.o) ∧
      ∀ g ∈ gs, ∀ i ∈ g.mem, i ∉ pc ∧ p.peakt / p.scale < lum p.w (x i) := by
  have htol : tol2 p < cosrad p := by
    unfold tol2 cosrad
    exact cos_lt_cos_of_nonneg_of_le_pi hr0.le hr (by linarith)
  have htol1 : tol2 p < 1 := htol.trans h.cone
  have hs := findPeak_cases hS h
  rcases hs with ⟨-, h2⟩ | ⟨top, rest, l, h1, h2, h3⟩
  · rw [h2] at hf; simp at hf
  · rw [h3] at hf
    obtain ⟨rfl, rfl⟩ : source p x top (top :: l) = s ∧ taken p x top (top :: l) = pc := by simpa using hf
    obtain ⟨-, -, t3, -, -⟩ := taken_spec hS h1 h2
    classical
    set far := (top :: rest).filter fun i => (x top).v.dot (x i).v < tol2 p with hfar
    obtain ⟨gs, g1, g2⟩ := C62_terminates hS p.w x (p.peakt * 4 / p.scale) (tol2 p)
      (fun i => by rw [normSq_self, h.unit]; exact htol1) far
    have hlen : far.length ≤ n := by
      have e1 : far.length ≤ (top :: rest).length := List.length_filter_le _ _
      have e2 : (top :: rest).length ≤ n := by
        rw [← h1]
        have := (nodup_sorted hS p x).length_le_card
        simpa using this
      omega
    refine ⟨gs, fun fuel hfu => ?_, (C62_sizes g2 h.o).1, fun g hg i hi => ?_⟩
    · unfold secondary
      have h1' : S _ _ = _ := h1
      rw [h1']
      simp only
      rw [← g1 fuel (by omega), hfar]
    · obtain ⟨r, hr1, -⟩ := g2.share
      have hm := (mem_above.mp (hr1.mem_iff.mpr (List.mem_append_left _ (List.mem_flatMap.mpr ⟨g, hg, hi⟩)))).1
      rw [hfar] at hm
      obtain ⟨m1, m2⟩ := List.mem_filter.mp hm
      rw [decide_eq_true_eq] at m2
      refine ⟨fun hpc => ?_, ?_⟩
      · have := (t3 i hpc).2
        linarith
      · rw [← mem_sorted hS, h1]; exact m1

/-- the default cone satisfies the bounds of `C62_secondary` -/
example : 0 < √(6.7967e-05 / π) * 4 ∧ √(6.7967e-05 / π) * 4 * 8 ≤ π := by
  have hp := pi_gt_three
  have h1 : 0 < √(6.7967e-05 / π) := sqrt_pos.mpr (by positivity)
  have h2 : √(6.7967e-05 / π) ≤ 0.01 := by
    refine sqrt_le_iff.mpr ⟨by norm_num, ?_⟩
    rw [div_le_iff₀ (by linarith)]
    norm_num
    linarith
  exact ⟨by linarith, by linarith⟩

/-! ### C106 -/

/-- **C106** the direction of every secondary source is a unit vector -/
def C106_statement : Prop :=
  ∀ (k n : ℕ) (S : Sorter n) (w : Fin k → ℝ) (x : Fin n → Px k) (t cr : ℝ) (l : List (Fin n)) (fuel : ℕ)
    (gs : List (Group k n)), SortOk S → cr < 1 → (∀ i, (x i).v.normSq = 1) → gather S w x t cr fuel l = some gs →
      ∀ g ∈ gs, g.dir.normSq = 1

/-- **C106** what holds: the direction is inside the unit ball and in the cone of the brightest member -/
theorem C106_partial {w : Fin k → ℝ} {x : Fin n → Px k} {t cr : ℝ} {l : List (Fin n)} {gs : List (Group k n)}
    (h : Grouping w x t cr l gs) (hu : ∀ i, (x i).v.normSq = 1) :
    ∀ g ∈ gs, g.dir.len ≤ 1 ∧ ∃ top ∈ g.mem, cr < (x top).v.dot g.dir ∧ cr < g.dir.len := by
  intro g hg
  obtain ⟨e, top, ht, hc⟩ := h.cone g hg
  have := wmean_len (l := g.mem.map fun i => (1, (x i).v)) (by simpa using List.ne_nil_of_mem ht)
    (fun q hq => by obtain ⟨i, hi, rfl⟩ := List.mem_map.mp hq; exact ⟨one_pos, hu i⟩) (hu top) (c := cr)
    (fun q hq => by obtain ⟨i, hi, rfl⟩ := List.mem_map.mp hq; exact (hc i hi).2)
  have hd : g.dir = wmean (g.mem.map fun i => (1, (x i).v)) := by
    conv_lhs => rw [e]
    rfl
  rw [hd]
  exact ⟨this.2.2, top, ht, this.1, by linarith [this.1, this.2.1]⟩

/-- four rays, three to the north and one to the east -/
noncomputable def fx : Fin 4 → Px 1 := ![⟨⟨0, 1, 0⟩, 1, fun _ => 1⟩, ⟨⟨0, 1, 0⟩, 1, fun _ => 1⟩, ⟨⟨0, 1, 0⟩, 1, fun _ => 1⟩,
  ⟨⟨1, 0, 0⟩, 1, fun _ => 1⟩]

theorem C106_refuted : ¬ C106_statement := by
  intro h
  obtain ⟨S, hS⟩ := sorter_exists (n := 4)
  have hu : ∀ i, (fx i).v.normSq = 1 := by intro i; fin_cases i <;> norm_num [fx, V3.normSq]
  have hl : ∀ i, lum (fun _ => 1) (fx i) = 1 := by intro i; fin_cases i <;> simp [fx, lum]
  have hab : ∀ m : List (Fin 4), above (fun i => lum (fun _ => 1) (fx i)) 0 m = m := fun m =>
    above_idem _ _ fun i _ => by rw [hl]; exact one_pos
  have hdot : ∀ i j, -1 < (fx i).v.dot (fx j).v := by
    intro i j; fin_cases i <;> fin_cases j <;> norm_num [fx, V3.dot]
  have hp := (hS (fun i => lum (fun _ => 1) (fx i)) (List.finRange 4)).1
  obtain ⟨top, rest, hs⟩ := List.exists_cons_of_ne_nil (l := S (fun i => lum (fun _ => 1) (fx i)) (List.finRange 4))
    (by intro hn; rw [hn] at hp; simpa using hp.length_eq)
  have hin : inCone fx top (-1) (top :: rest) = top :: rest := by
    unfold inCone; rw [List.filter_eq_self]; intro i _; simpa using hdot top i
  have hout : outCone fx top (-1) (top :: rest) = [] := by
    unfold outCone; rw [List.filter_eq_nil_iff]; intro i _; simpa using hdot top i
  have hg : gather S (fun _ => 1) fx 0 (-1) 2 (List.finRange 4) = some [group fx (top :: rest)] := by
    unfold gather
    rw [hab, if_pos (by simp), hs]
    simp only [hin, hout]
    unfold gather
    rw [if_neg (by simp [above])]
    rfl
  have := h 1 4 S (fun _ => 1) fx 0 (-1) _ 2 _ hS (by norm_num) hu hg _ (List.mem_singleton.mpr rfl)
  rw [hs] at hp
  have hx : ∀ f : Fin 4 → ℝ, ((top :: rest).map f).sum = f 0 + f 1 + f 2 + f 3 := fun f => by
    rw [(hp.map f).sum_eq, ← Fin.sum_univ_def, Fin.sum_univ_four]
  have h1 := hx fun i => 1 * (fx i).v.x
  have h2 := hx fun i => 1 * (fx i).v.y
  have h3 := hx fun i => 1 * (fx i).v.z
  have h4 := hx fun i => 1
  unfold group wmean at this
  simp only [List.map_map, Function.comp_def, V3.divS, V3.normSq] at this
  rw [h1, h2, h3, h4] at this
  have f0 : (fx 0).v = ⟨0, 1, 0⟩ := rfl
  have f1 : (fx 1).v = ⟨0, 1, 0⟩ := rfl
  have f2 : (fx 2).v = ⟨0, 1, 0⟩ := rfl
  have f3 : (fx 3).v = ⟨1, 0, 0⟩ := rfl
  rw [f0, f1, f2, f3] at this
  norm_num at this

end Verif.Peak
