import Verif.Model.Alias
import Verif.Props.Angles
import Verif.Props.ViewMapper

/-! C56 (arguments are not modified) and C89 (integer arguments). -/

namespace Verif.Alias
open Verif.Geo Verif.Map Real

/-- every array the caller could hold before the call has the same contents after it -/
def Kept (h h' : Heap) : Prop := ∀ k < h.next, h'.c2 k = h.c2 k ∧ h'.c3 k = h.c3 k

/-- what C56 asks -/
def C56_statement : Prop :=
  ∀ (h : Heap) (l : ℕ), l < h.next →
    Kept h (tpnormH (.ref l) h).2 ∧ Kept h (tp2xyzH true (.ref l) h).2 ∧ Kept h (tp2xyzH false (.ref l) h).2 ∧
    Kept h (xyz2tpH l h).2 ∧ (∀ x, Kept h (uv2xyzH x l h).2) ∧ (∀ f, Kept h (xyz2uvH f l h).2) ∧
    (∀ m, Kept h (viewVxy2xyzH m (.ref l) h).2) ∧ (∀ m, Kept h (planarVxy2xyzH m (.ref l) h).2)

theorem new2_kept (h : Heap) (a : Arr) : Kept h (h.new2 a).2 := by
  intro k hk
  simp only [Heap.new2, and_true, if_neg hk.ne]

theorem new3_kept (h : Heap) (r : List V3) : Kept h (h.new3 r).2 := by
  intro k hk
  simp only [Heap.new3, true_and, if_neg hk.ne]

theorem Kept.trans {a b c : Heap} (h1 : Kept a b) (h2 : Kept b c) (h : a.next ≤ b.next) : Kept a c := by
  intro k hk
  obtain ⟨p, q⟩ := h1 k hk
  obtain ⟨r, s⟩ := h2 k (hk.trans_le h)
  exact ⟨r.trans p, s.trans q⟩

theorem assign_kept (h h' : Heap) (l : ℕ) (f) (hl : h.next ≤ l) (hk : Kept h h') : Kept h (h'.assign l f) := by
  intro k hlt
  obtain ⟨p, q⟩ := hk k hlt
  refine ⟨?_, q⟩
  unfold Heap.assign
  simp only
  rw [if_neg (by omega), p]

theorem atleast2d_lit_kept (h : Heap) (a : Arr) :
    Kept h (atleast2d (.lit a) h).2 ∧ (atleast2d (.lit a) h).1 = h.next := ⟨new2_kept h a, rfl⟩

/-- **C56** the transforms that do respect their argument: nothing the caller holds changes, and the result holds
the value of the mathematical function on the caller's rows. Missing for the full claim: `tpnorm`,
`tp2xyz(normalize=True)` and both `vxy2xyz` overwrite an array argument (`C56_tpnorm`, `C56_vxy2xyz`,
`C56_refuted`). -/
theorem C56_pure_partial (h : Heap) (l : ℕ) (hl : l < h.next) :
    (Kept h (xyz2tpH l h).2 ∧ ((xyz2tpH l h).2.c2 (xyz2tpH l h).1).rows = (h.c3 l).map Geo.xyz2tp) ∧
    (Kept h (tp2xyzH false (.ref l) h).2 ∧
      (tp2xyzH false (.ref l) h).2.c3 (tp2xyzH false (.ref l) h).1 = (h.c2 l).rows.map (Geo.tp2xyz false)) ∧
    (Kept h (aa2xyzH l h).2 ∧ (aa2xyzH l h).2.c3 (aa2xyzH l h).1 = (h.c2 l).rows.map Geo.aa2xyz) ∧
    (∀ x, Kept h (uv2xyzH x l h).2 ∧
      (uv2xyzH x l h).2.c3 (uv2xyzH x l h).1 = (h.c2 l).rows.map (Geo.uv2xyz x)) ∧
    (∀ f, Kept h (xyz2uvH f l h).2 ∧
      ((xyz2uvH f l h).2.c2 (xyz2uvH f l h).1).rows = (h.c3 l).map (Geo.xyz2uv f)) := by
  refine ⟨⟨?_, ?_⟩, ⟨?_, ?_⟩, ⟨?_, ?_⟩, fun x => ⟨new3_kept _ _, ?_⟩, fun f => ⟨new2_kept _ _, ?_⟩⟩
  · unfold xyz2tpH tpnormH atleast2d
    exact assign_kept _ _ _ _ le_rfl (new2_kept _ _)
  · simp [xyz2tpH, tpnormH, atleast2d, Heap.new2, Heap.assign, castRow, cast1, Geo.xyz2tp, Function.comp_def]
  · simpa [tp2xyzH, atleast2d] using new3_kept h _
  · simp [tp2xyzH, atleast2d, Heap.new3, Geo.tp2xyz]
  · unfold aa2xyzH tp2xyzH tpnormH atleast2d
    rw [if_pos rfl]
    refine Kept.trans (assign_kept _ _ _ _ le_rfl (new2_kept _ _)) (new3_kept _ _) ?_
    simp [Heap.assign, Heap.new2]
  · simp [aa2xyzH, tp2xyzH, tpnormH, atleast2d, Heap.new2, Heap.new3, Heap.assign, castRow, cast1, Geo.aa2xyz,
      Geo.tp2xyz, Function.comp_def]
  · simp [uv2xyzH, Heap.new3]
  · simp [xyz2uvH, Heap.new2]

/-- **C56** the result of the transforms is a new array, at an address the caller does not hold and that no later
array will take, and coordinates of the square and angles come as floats -/
theorem C56_fresh (h : Heap) (l : ℕ) :
    (h.next ≤ (xyz2tpH l h).1 ∧ (xyz2tpH l h).1 < (xyz2tpH l h).2.next ∧ ((xyz2tpH l h).2.c2 (xyz2tpH l h).1).isInt = false) ∧
    (∀ nz, h.next ≤ (tp2xyzH nz (.ref l) h).1 ∧ (tp2xyzH nz (.ref l) h).1 < (tp2xyzH nz (.ref l) h).2.next) ∧
    (h.next ≤ (aa2xyzH l h).1 ∧ (aa2xyzH l h).1 < (aa2xyzH l h).2.next) ∧
    (∀ x, h.next ≤ (uv2xyzH x l h).1 ∧ (uv2xyzH x l h).1 < (uv2xyzH x l h).2.next) ∧
    (∀ f, h.next ≤ (xyz2uvH f l h).1 ∧ (xyz2uvH f l h).1 < (xyz2uvH f l h).2.next ∧
      ((xyz2uvH f l h).2.c2 (xyz2uvH f l h).1).isInt = false) ∧
    (∀ m k, (viewVxy2xyzH m (.ref l) h).1 = .ok k → h.next ≤ k ∧ k < (viewVxy2xyzH m (.ref l) h).2.next) ∧
    (∀ m k, (planarVxy2xyzH m (.ref l) h).1 = .ok k → h.next ≤ k ∧ k < (planarVxy2xyzH m (.ref l) h).2.next) := by
  refine ⟨?_, ?_, ?_, ?_, ?_, ?_, ?_⟩
  · simp [xyz2tpH, tpnormH, atleast2d, Heap.new2, Heap.assign]
  · intro nz
    cases nz <;> simp [tp2xyzH, tpnormH, atleast2d, Heap.new3, Heap.assign]
  · simp [aa2xyzH, tp2xyzH, tpnormH, atleast2d, Heap.new2, Heap.new3, Heap.assign]
  · intro x; simp [uv2xyzH, Heap.new3]
  · intro f; simp [xyz2uvH, Heap.new2]
  · intro m k hk
    unfold viewVxy2xyzH at hk ⊢
    split_ifs at hk ⊢
    cases hk
    simp [atleast2d, Heap.new3, Heap.assign]
  · intro m k hk
    unfold planarVxy2xyzH at hk ⊢
    cases hk
    simp [Heap.new3, Heap.assign]

/-- **C56** `pixel2ray` scales into a temporary, so the caller's pixels survive although `vxy2xyz` overwrites its
argument; the rays are those of the caller's pixels -/
theorem C56_pixel2ray_partial (h : Heap) (l : ℕ) (hl : l < h.next) (res : ℕ × ℕ) :
    (∀ m : View, Kept h (viewPixel2rayH m res l h).2 ∧ ∃ k, (viewPixel2rayH m res l h).1 = .ok k ∧
      (viewPixel2rayH m res l h).2.c3 k = (h.c2 l).rows.map fun r => m.vxy2xyz (r.1 / res.1, r.2 / res.2)) ∧
    (∀ m : Planar, Kept h (planarPixel2rayH m res l h).2 ∧ ∃ k, (planarPixel2rayH m res l h).1 = .ok k ∧
      (planarPixel2rayH m res l h).2.c3 k = (h.c2 l).rows.map fun r => m.pixel2ray res r) := by
  constructor
  · intro m
    have hi : ((atleast2d (.ref (scaled res l h).1) (scaled res l h).2).2.c2
        (atleast2d (.ref (scaled res l h).1) (scaled res l h).2).1).isInt = false := by
      simp [atleast2d, scaled, Heap.new2]
    unfold viewPixel2rayH viewVxy2xyzH
    rw [hi]
    simp only [Bool.false_eq_true, if_false]
    refine ⟨?_, _, rfl, ?_⟩
    · refine Kept.trans (assign_kept _ _ _ _ le_rfl (new2_kept _ _)) (new3_kept _ _) ?_
      simp [Heap.assign, Heap.new2, atleast2d, scaled]
    · simp [Heap.new3, atleast2d, scaled, Heap.new2, Function.comp_def]
  · intro m
    unfold planarPixel2rayH planarVxy2xyzH
    simp only
    refine ⟨?_, _, rfl, ?_⟩
    · refine Kept.trans (assign_kept _ _ _ _ le_rfl (new2_kept _ _)) (new3_kept _ _) ?_
      simp [Heap.assign, Heap.new2, scaled]
    · simp [Heap.new3, scaled, Heap.new2, Heap.assign, castRow, cast1, Function.comp_def, Planar.pixel2ray,
        Planar.vxy2xyz, Planar.vxy2xyzM]

/-- **C56** given a list instead of an array nothing of the caller's is modified by any of them -/
theorem C56_literal_partial (h : Heap) (a : Arr) (nz : Bool) (m : View) (p : Planar) :
    Kept h (tpnormH (.lit a) h).2 ∧ Kept h (tp2xyzH nz (.lit a) h).2 ∧ Kept h (viewVxy2xyzH m (.lit a) h).2 ∧
    Kept h (planarVxy2xyzH p (.lit a) h).2 := by
  have h1 : Kept h (tpnormH (.lit a) h).2 := assign_kept _ _ _ _ le_rfl (new2_kept _ _)
  refine ⟨h1, ?_, ?_, ?_⟩
  · unfold tp2xyzH
    split_ifs
    · exact Kept.trans h1 (new3_kept _ _) (by simp [tpnormH, Heap.assign, atleast2d, Heap.new2])
    · exact Kept.trans (new2_kept _ _) (new3_kept _ _) (by simp [Heap.new2])
  · unfold viewVxy2xyzH
    split_ifs
    · exact new2_kept _ _
    · refine Kept.trans (assign_kept _ _ _ _ le_rfl (new2_kept _ _)) (new3_kept _ _) ?_
      simp [Heap.assign, Heap.new2, atleast2d]
  · intro k _; exact ⟨rfl, rfl⟩

theorem tpnorm_fixed (r : ℝ × ℝ) : Geo.tpnorm r = r ↔ (0 ≤ r.1 ∧ r.1 < π) ∧ (0 ≤ r.2 ∧ r.2 < 2 * π) := by
  have hpi := pi_pos
  constructor
  · intro h
    have h1 := fmod_range (r.1 + π) hpi
    have h2 := fmod_range (r.2 + 2 * π) (show 0 < 2 * π by linarith)
    unfold Geo.tpnorm at h
    rw [← h]
    exact ⟨h1, h2⟩
  · rintro ⟨⟨a, b⟩, c, d⟩
    unfold Geo.tpnorm
    rw [fmod_add_self _ hpi, fmod_add_self _ (by linarith), fmod_eq_self hpi a b,
      fmod_eq_self (by linarith) c d]

theorem map_self_iff {α : Type} (f : α → α) (l : List α) : l.map f = l ↔ ∀ a ∈ l, f a = a := by
  induction l with
  | nil => simp
  | cons a l ih => simp [ih]

/-- **C56** `tpnorm` on an array returns the very array it was given; exactly its rows are normalized, every other
array is untouched; a float array survives unchanged exactly when all its rows are normalized already -/
theorem C56_tpnorm (h : Heap) (l : ℕ) :
    (tpnormH (.ref l) h).1 = l ∧
    (∀ k ≠ l, (tpnormH (.ref l) h).2.c2 k = h.c2 k) ∧ (tpnormH (.ref l) h).2.c3 = h.c3 ∧
    ((h.c2 l).isInt = false →
      ((tpnormH (.ref l) h).2.c2 l).rows = (h.c2 l).rows.map Geo.tpnorm ∧
      ((tpnormH (.ref l) h).2.c2 l = h.c2 l ↔
        ∀ r ∈ (h.c2 l).rows, (0 ≤ r.1 ∧ r.1 < π) ∧ (0 ≤ r.2 ∧ r.2 < 2 * π))) := by
  refine ⟨rfl, ?_, rfl, ?_⟩
  · intro k hk
    simp [tpnormH, atleast2d, Heap.assign, hk]
  · intro hf
    have e : ((tpnormH (.ref l) h).2.c2 l).rows = (h.c2 l).rows.map Geo.tpnorm := by
      simp [tpnormH, atleast2d, Heap.assign, castRow, cast1, hf]
    refine ⟨e, ?_⟩
    have e2 : (tpnormH (.ref l) h).2.c2 l = ⟨false, (h.c2 l).rows.map Geo.tpnorm⟩ := by
      simp [tpnormH, atleast2d, Heap.assign, castRow, cast1, hf]
    rw [e2]
    have e3 : h.c2 l = ⟨false, (h.c2 l).rows⟩ := by rw [← hf]
    constructor
    · intro hc
      rw [e3] at hc
      simp only [Arr.mk.injEq, true_and] at hc
      intro r hr
      rw [← tpnorm_fixed]
      have := (map_self_iff _ _).mp hc
      exact this r hr
    · intro hr
      rw [e3]
      simp only [Arr.mk.injEq, true_and]
      exact (map_self_iff _ _).mpr fun r hm => (tpnorm_fixed r).mpr (hr r hm)

/-- **C56** `vxy2xyz` of an angular mapper on a float array: the rays of the caller's points, and the points are
overwritten by the first two view coordinates of those rays -/
theorem C56_vxy2xyz (m : View) (h : Heap) (l : ℕ) (hf : (h.c2 l).isInt = false) :
    ∃ k, (viewVxy2xyzH m (.ref l) h).1 = .ok k ∧
      (viewVxy2xyzH m (.ref l) h).2.c3 k = (h.c2 l).rows.map m.vxy2xyz ∧
      ((viewVxy2xyzH m (.ref l) h).2.c2 l).rows
        = (h.c2 l).rows.map (fun r => ((polar2view (m.centred r)).x, (polar2view (m.centred r)).y)) ∧
      (∀ j ≠ l, (viewVxy2xyzH m (.ref l) h).2.c2 j = h.c2 j) := by
  unfold viewVxy2xyzH
  simp only [atleast2d, hf, Bool.false_eq_true, if_false]
  refine ⟨_, rfl, ?_, ?_, ?_⟩
  · simp [Heap.new3]
  · simp [Heap.new3, Heap.assign, hf, castRow, cast1, spoiled, View.vxy2xyzM, polar2view]
  · intro j hj
    simp [Heap.new3, Heap.assign, hj]

/-- **C56** the planar `vxy2xyz` mirrors the caller's points in place: a second call on the same array gives the
mirrored answer, a third the first one again -/
theorem C56_planar_vxy2xyz (m : Planar) (h : Heap) (l : ℕ) :
    ∃ k, (planarVxy2xyzH m (.ref l) h).1 = .ok k ∧
      ((h.c2 l).isInt = false →
        (planarVxy2xyzH m (.ref l) h).2.c3 k = (h.c2 l).rows.map m.vxy2xyz ∧
        ((planarVxy2xyzH m (.ref l) h).2.c2 l).rows = (h.c2 l).rows.map (fun r => (1 - r.1, r.2)) ∧
        ∃ k2, (planarVxy2xyzH m (.ref l) (planarVxy2xyzH m (.ref l) h).2).1 = .ok k2 ∧
          (planarVxy2xyzH m (.ref l) (planarVxy2xyzH m (.ref l) h).2).2.c3 k2 = (h.c2 l).rows.map m.uv2xyz ∧
          ((planarVxy2xyzH m (.ref l) (planarVxy2xyzH m (.ref l) h).2).2.c2 l).rows = (h.c2 l).rows) := by
  refine ⟨_, rfl, fun hf => ⟨?_, ?_, _, rfl, ?_, ?_⟩⟩ <;>
  simp [planarVxy2xyzH, Heap.new3, Heap.assign, hf, castRow, cast1, Function.comp_def, Planar.vxy2xyz, Planar.vxy2xyzM]

/-- the exact model names the same remains of the caller's points -/
theorem C56_planar_remains (m : Planar) (h : Heap) (l : ℕ) (hf : (h.c2 l).isInt = false) :
    ((planarVxy2xyzH m (.ref l) h).2.c2 l).rows = (h.c2 l).rows.map (fun r => (m.vxy2xyzM r).2) := by
  simp [planarVxy2xyzH, Heap.new3, Heap.assign, hf, castRow, cast1, Function.comp_def, Planar.vxy2xyzM]

/-- a heap holding one float array -/
def oneArr (rows : List (ℝ × ℝ)) : Heap := ⟨1, fun _ => ⟨false, rows⟩, fun _ => []⟩

theorem C56_refuted : ¬ C56_statement := by
  intro h
  have hpi := pi_pos
  have h1 := (h (oneArr [(0, -1)]) 0 (by norm_num [oneArr])).1
  have h2 := (h1 0 (by norm_num [oneArr])).1
  have h3 := ((C56_tpnorm (oneArr [(0, -1)]) 0).2.2.2 rfl).2.mp h2 (0, -1) (by simp [oneArr])
  norm_num at h3

/-- **C56** also false for `vxy2xyz` alone: the centre of the image is overwritten by zeros, so that a second call
on the same array returns the ray of the image corner -/
theorem C56_vxy2xyz_refuted (m : View) :
    ¬ Kept (oneArr [(1 / 2, 1 / 2)]) (viewVxy2xyzH m (.ref 0) (oneArr [(1 / 2, 1 / 2)])).2 ∧
    ((viewVxy2xyzH m (.ref 0) (oneArr [(1 / 2, 1 / 2)])).2.c2 0).rows = [(0, 0)] := by
  have hc : m.centred (1 / 2, 1 / 2) = (0, 0) := by simp [View.centred]
  have hp : ((polar2view (0, 0)).x, (polar2view (0, 0)).y) = ((0 : ℝ), (0 : ℝ)) := by simp [polar2view]
  have key : ((viewVxy2xyzH m (.ref 0) (oneArr [(1 / 2, 1 / 2)])).2.c2 0).rows = [(0, 0)] := by
    obtain ⟨k, _, _, h3, _⟩ := C56_vxy2xyz m (oneArr [(1 / 2, 1 / 2)]) 0 rfl
    rw [h3]
    simp only [oneArr, List.map_cons, List.map_nil, hc, hp]
  refine ⟨fun hk => ?_, key⟩
  have := (hk 0 (by norm_num [oneArr])).1
  rw [this] at key
  simp [oneArr] at key

/-! ### C89 integer arguments -/

/-- the array with the same numbers, stored as floats -/
def Arr.float (a : Arr) : Arr := ⟨false, a.rows⟩

/-- integer-valued rows -/
def Integral (a : Arr) : Prop := ∀ r ∈ a.rows, (∃ i : ℤ, r.1 = i) ∧ ∃ j : ℤ, r.2 = j

/-- what C89 asks of literals: whole numbers written without a decimal point mean the same -/
def C89_statement : Prop :=
  ∀ (h : Heap) (rows : List (ℝ × ℝ)), Integral ⟨true, rows⟩ →
    ((tpnormH (.lit ⟨true, rows⟩) h).2.c2 h.next).rows = ((tpnormH (.lit ⟨false, rows⟩) h).2.c2 h.next).rows ∧
    (∀ m, ∃ k, (viewVxy2xyzH m (.lit ⟨true, rows⟩) h).1 = .ok k ∧
      (viewVxy2xyzH m (.lit ⟨true, rows⟩) h).2.c3 k = rows.map m.vxy2xyz)

theorem trunc_int (i : ℤ) : trunc (i : ℝ) = i := by unfold trunc; split_ifs <;> simp

/-- **C89** what happens: `tpnorm` truncates its result, the angular `vxy2xyz` raises and leaves everything as it
was, the planar one is exact. -/
theorem C89_integer_partial (h : Heap) (l : ℕ) (hi : (h.c2 l).isInt = true) :
    ((tpnormH (.ref l) h).2.c2 l).rows
      = (h.c2 l).rows.map (fun r => ((trunc (Geo.tpnorm r).1 : ℝ), (trunc (Geo.tpnorm r).2 : ℝ))) ∧
    (∀ m, viewVxy2xyzH m (.ref l) h = (.error .TypeError, h)) ∧
    (Integral (h.c2 l) → ∀ m, ∃ k, (planarVxy2xyzH m (.ref l) h).1 = .ok k ∧
      (planarVxy2xyzH m (.ref l) h).2.c3 k = (h.c2 l).rows.map m.vxy2xyz) ∧
    (∀ m : View, ∀ res, ∃ k, (viewPixel2rayH m res l h).1 = .ok k) := by
  refine ⟨?_, ?_, ?_, ?_⟩
  · simp [tpnormH, atleast2d, Heap.assign, castRow, cast1, hi]
  · intro m
    simp [viewVxy2xyzH, atleast2d, hi]
  · intro hint m
    refine ⟨_, rfl, ?_⟩
    simp only [planarVxy2xyzH, Heap.new3, Heap.assign, hi, if_true, List.map_map]
    apply List.map_congr_left
    intro r hr
    obtain ⟨⟨i, ei⟩, j, ej⟩ := hint r hr
    have e1 : (1 : ℝ) - r.1 = ((1 - i : ℤ) : ℝ) := by rw [ei]; push_cast; ring
    simp only [Function.comp_apply, castRow, cast1, if_true, e1, ej, trunc_int, Planar.vxy2xyz, Planar.vxy2xyzM]
  · intro m res
    simp [viewPixel2rayH, viewVxy2xyzH, atleast2d, scaled, Heap.new2]

theorem C89_refuted : ¬ C89_statement := by
  intro h
  have hpi := pi_pos
  have h1 := (h (oneArr []) [(0, -1)] (by
    intro r hr
    simp only [List.mem_singleton] at hr
    rw [hr]
    exact ⟨⟨0, by simp⟩, -1, by simp⟩)).2 (View.new ⟨0, 0, 1⟩ 180)
  obtain ⟨k, hk, _⟩ := h1
  simp [viewVxy2xyzH, atleast2d, Heap.new2] at hk

/-- **C89** and `tpnorm` of the literal `(0, -1)` is `(0, 5)`, not `(0, 2π - 1)` -/
theorem C89_tpnorm_refuted (h : Heap) :
    ((tpnormH (.lit ⟨true, [(0, -1)]⟩) h).2.c2 h.next).rows = [(0, 5)] ∧
    ((tpnormH (.lit ⟨false, [(0, -1)]⟩) h).2.c2 h.next).rows = [(0, 2 * π - 1)] := by
  have hp3 := pi_gt_three
  have hp4 := pi_lt_d2
  have e1 : fmod (0 + π) π = 0 := by rw [fmod_add_self _ pi_pos, fmod_eq_self pi_pos le_rfl pi_pos]
  have e2 : fmod (-1 + 2 * π) (2 * π) = 2 * π - 1 := by
    rw [show -1 + 2 * π = 2 * π - 1 by ring, fmod_eq_self (by linarith) (by linarith) (by linarith)]
  have e3 : trunc (2 * π - 1) = 5 := by
    unfold trunc
    rw [if_pos (by linarith), Int.floor_eq_iff]
    norm_num at hp4 ⊢
    constructor <;> linarith
  have e4 : trunc (0 : ℝ) = 0 := by simp [trunc]
  constructor
  · simp only [tpnormH, atleast2d, Heap.assign, Heap.new2, castRow, cast1, Geo.tpnorm, List.map_cons, List.map_nil,
      if_true, e1, e2, e3, e4]
    norm_num
  · simp only [tpnormH, atleast2d, Heap.assign, Heap.new2, castRow, cast1, Geo.tpnorm, List.map_cons, List.map_nil,
      if_true, e1, e2]
    norm_num

example : (0 : ℕ) < (oneArr [(1 / 2, 1 / 2)]).next := by norm_num [oneArr]

end Verif.Alias
