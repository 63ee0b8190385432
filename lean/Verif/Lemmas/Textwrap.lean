import Verif.Model.Textwrap
import Verif.Lemmas.HeaderRun
import Mathlib.Tactic.Ring
/-! Facts about the model of `textwrap`. -/
namespace Verif.Textwrap
open Verif.Py Verif.Header

/-! ## chunks -/

theorem chunkLen_pos (k : Cls) (prev : Str) (c : Char) (s : Str) : 1 ≤ chunkLen k prev (c :: s) := by
  simp only [chunkLen]
  split_ifs with h1 h2
  · simp [List.takeWhile_cons, h1]
  · unfold emDash at h2
    simp only [Bool.and_eq_true, decide_eq_true_eq] at h2
    omega
  · omega

theorem splitGo_ok (k : Cls) (n : Nat) (prev s : Str) (h : s.length ≤ n) :
    (splitGo k n prev s).flatten = s ∧ ∀ c ∈ splitGo k n prev s, c ≠ [] := by
  induction n generalizing prev s with
  | zero =>
    have : s = [] := List.length_eq_zero_iff.1 (by omega)
    subst this
    exact ⟨rfl, by simp [splitGo]⟩
  | succ n ih =>
    cases s with
    | nil => exact ⟨rfl, by simp [splitGo]⟩
    | cons c s =>
      have hp := chunkLen_pos k prev c s
      have := ih (((c :: s).take (chunkLen k prev (c :: s))).reverse ++ prev) ((c :: s).drop (chunkLen k prev (c :: s)))
        (by rw [List.length_drop]; simp only [List.length_cons] at h ⊢; omega)
      simp only [splitGo, List.flatten_cons, List.mem_cons]
      rw [this.1, List.take_append_drop]
      refine ⟨rfl, ?_⟩
      rintro x (rfl | hx)
      · intro h0
        have := congrArg List.length h0
        rw [List.length_take, List.length_cons] at this
        simp only [List.length_nil] at this
        omega
      · exact this.2 x hx

theorem split_flatten (k : Cls) (s : Str) : (split k s).flatten = s := (splitGo_ok k _ _ s le_rfl).1

theorem split_ne_nil (k : Cls) (s : Str) : ∀ c ∈ split k s, c ≠ [] := (splitGo_ok k _ _ s le_rfl).2

theorem length_le_flatten (l : List Str) (h : ∀ c ∈ l, c ≠ []) : l.length ≤ l.flatten.length := by
  induction l with
  | nil => simp
  | cons c l ih =>
    have h1 := List.length_pos_iff.2 (h c (by simp))
    have h2 := ih fun x hx => h x (by simp [hx])
    simp only [List.length_cons, List.flatten_cons, List.length_append]
    omega

/-! ## lines -/

theorem fitLine_flatten (width : Int) (cur : Nat) (l : List Str) :
    (fitLine width cur l).1 ++ (fitLine width cur l).2.flatten = l.flatten := by
  induction l generalizing cur with
  | nil => rfl
  | cons c l ih =>
    unfold fitLine
    split_ifs with h
    · rw [List.append_assoc, ih]; rfl
    · rfl

theorem fitLine_le (width : Int) (cur : Nat) (l : List Str) (h : (cur : Int) ≤ width) :
    (cur : Int) + (fitLine width cur l).1.length ≤ width := by
  induction l generalizing cur with
  | nil => simpa [fitLine] using h
  | cons c l ih =>
    unfold fitLine
    split_ifs with h1
    · have := ih (cur + c.length) (by push_cast; omega)
      push_cast at this
      simp only [List.length_append]
      push_cast
      omega
    · simpa using h

theorem fitLine_count (width : Int) (cur : Nat) (l : List Str) : (fitLine width cur l).2.length ≤ l.length := by
  induction l generalizing cur with
  | nil => simp [fitLine]
  | cons c l ih =>
    unfold fitLine
    split_ifs with h1
    · exact (ih _).trans (by simp)
    · simp

theorem fitLine_rest (width : Int) (cur : Nat) (l : List Str) (c : Str) (cs : List Str)
    (h : (fitLine width cur l).2 = c :: cs) : width < (cur : Int) + (fitLine width cur l).1.length + c.length := by
  induction l generalizing cur with
  | nil => simp [fitLine] at h
  | cons a l ih =>
    unfold fitLine at h ⊢
    split_ifs at h ⊢ with h1
    · have := ih _ h
      simp only [List.length_append]
      push_cast at this ⊢
      omega
    · injection h with h2 h3
      subst h2
      simp only [List.length_nil]
      omega

/-- when nothing is left over, or something fits -/
theorem fitLine_cases (width : Int) (c : Str) (cs : List Str) :
    ((c.length : Int) ≤ width ∧ (fitLine width 0 (c :: cs)).2.length ≤ cs.length) ∨
      (width < c.length ∧ fitLine width 0 (c :: cs) = ([], c :: cs)) := by
  by_cases h : (c.length : Int) ≤ width
  · left
    refine ⟨h, ?_⟩
    unfold fitLine
    rw [if_pos (by push_cast; omega)]
    exact fitLine_count _ _ _
  · right
    refine ⟨by omega, ?_⟩
    unfold fitLine
    rw [if_neg (by push_cast; omega)]

theorem lastHyphen_lt (s : Str) (h : Nat) (hs : lastHyphen s = some h) : h < s.length := by
  induction s generalizing h with
  | nil => cases hs
  | cons c s ih =>
    unfold lastHyphen at hs
    cases hx : lastHyphen s with
    | some i =>
      rw [hx] at hs
      injection hs with hs
      have := ih i hx
      simp only [List.length_cons]
      omega
    | none =>
      rw [hx] at hs
      simp only at hs
      split_ifs at hs
      injection hs with hs
      simp only [List.length_cons]
      omega

theorem cutAt_le (c : Str) (s : Nat) : cutAt c s ≤ s := by
  unfold cutAt
  split_ifs with h
  · cases hx : lastHyphen (c.take s) with
    | none => exact le_rfl
    | some i =>
      have := lastHyphen_lt _ _ hx
      rw [List.length_take] at this
      simp only
      split_ifs <;> omega
  · exact le_rfl

theorem cutAt_pos (c : Str) (s : Nat) (hs : 1 ≤ s) : 1 ≤ cutAt c s := by
  unfold cutAt
  split_ifs with h
  · cases lastHyphen (c.take s) with
    | none => exact hs
    | some i =>
      simp only
      split_ifs <;> omega
  · exact hs

theorem lineStep_flatten (width : Int) (l : List Str) : (lineStep width l).1 ++ (lineStep width l).2.flatten = l.flatten := by
  have h := fitLine_flatten width 0 l
  unfold lineStep
  cases hx : (fitLine width 0 l).2 with
  | nil => rw [hx] at h; exact h
  | cons c cs =>
    rw [hx] at h
    simp only
    split_ifs
    · simp only [List.flatten_cons] at h ⊢
      rw [← h, List.append_assoc, ← List.append_assoc (c.take _), List.take_append_drop]
    · exact h

/-- a line is not wider than allowed -/
theorem lineStep_le (width : Int) (l : List Str) (hw : 1 ≤ width) : ((lineStep width l).1.length : Int) ≤ width := by
  have h := fitLine_le width 0 l (by push_cast; omega)
  unfold lineStep
  cases hx : (fitLine width 0 l).2 with
  | nil => simpa using h
  | cons c cs =>
    simp only
    split_ifs with h1
    · have h2 := cutAt_le c (spaceLeft width (fitLine width 0 l).1.length)
      unfold spaceLeft at h2 ⊢
      rw [if_neg (by omega)] at h2 ⊢
      simp only [List.length_append, List.length_take]
      push_cast at h ⊢
      omega
    · simpa using h

/-- the work left: characters and chunks -/
def work (l : List Str) : Nat := l.flatten.length + l.length

theorem lineStep_work (width : Int) (c : Str) (cs : List Str) (hw : 0 ≤ width) :
    work (lineStep width (c :: cs)).2 < work (c :: cs) := by
  have hf := congrArg List.length (fitLine_flatten width 0 (c :: cs))
  rw [List.length_append] at hf
  rcases fitLine_cases width c cs with ⟨h1, h2⟩ | ⟨h1, h2⟩
  · unfold lineStep work
    cases hx : (fitLine width 0 (c :: cs)).2 with
    | nil => simp
    | cons d ds =>
      rw [hx] at h2 hf
      simp only
      split_ifs
      · simp only [List.flatten_cons, List.length_append, List.length_drop, List.length_cons] at hf h2 ⊢
        omega
      · simp only [List.flatten_cons, List.length_append, List.length_cons] at hf h2 ⊢
        omega
  · unfold lineStep
    rw [h2]
    simp only
    rw [if_pos (by omega)]
    have h3 := cutAt_pos c (spaceLeft width (List.length ([] : Str))) (by
      unfold spaceLeft
      split_ifs <;> simp <;> omega)
    unfold work
    simp only [List.flatten_cons, List.length_append, List.length_drop, List.length_cons]
    omega

theorem wrapGo_ends (w ind : Nat) (h : ind ≤ w) (n : Nat) (width : Int) (hw : 0 ≤ width) (l : List Str) (hn : work l ≤ n) :
    ∃ r, wrapGo w ind n width l = some r := by
  induction n generalizing width l with
  | zero =>
    cases l with
    | nil => exact ⟨[], rfl⟩
    | cons c cs => unfold work at hn; simp at hn
  | succ n ih =>
    cases l with
    | nil => exact ⟨[], rfl⟩
    | cons c cs =>
      have := lineStep_work width c cs hw
      obtain ⟨r, hr⟩ := ih ((w : Int) - ind) (by omega) (lineStep width (c :: cs)).2 (by omega)
      exact ⟨_, by unfold wrapGo; rw [hr]; rfl⟩

theorem wrapGo_mono (w ind n : Nat) (width : Int) (l : List Str) (r : List Str) (h : wrapGo w ind n width l = some r)
    (m : Nat) (hm : n ≤ m) : wrapGo w ind m width l = some r := by
  induction n generalizing width l r m with
  | zero =>
    cases l with
    | nil => cases m <;> exact h
    | cons c cs => cases h
  | succ n ih =>
    cases l with
    | nil => cases m <;> exact h
    | cons c cs =>
      cases m with
      | zero => omega
      | succ m =>
        unfold wrapGo at h ⊢
        cases hx : wrapGo w ind n ((w : Int) - ind) (lineStep width (c :: cs)).2 with
        | none => rw [hx] at h; cases h
        | some r' =>
          rw [hx] at h
          rw [ih _ _ _ hx m (by omega)]
          exact h

/-- with a negative width a line takes no chunk away -/
theorem lineStep_stuck (width : Int) (c : Str) (cs : List Str) (hw : width < 0) : (lineStep width (c :: cs)).2 ≠ [] := by
  rcases fitLine_cases width c cs with ⟨h1, h2⟩ | ⟨h1, h2⟩
  · omega
  · unfold lineStep
    rw [h2]
    simp only
    rw [if_pos (by omega)]
    simp

theorem wrapGo_stuck (w ind : Nat) (h : w < ind) (n : Nat) (l : List Str) (hl : l ≠ []) :
    wrapGo w ind n ((w : Int) - ind) l = none := by
  induction n generalizing l with
  | zero =>
    cases l with
    | nil => exact absurd rfl hl
    | cons c cs => rfl
  | succ n ih =>
    cases l with
    | nil => exact absurd rfl hl
    | cons c cs =>
      unfold wrapGo
      rw [ih _ (lineStep_stuck _ c cs (by omega))]
      rfl

theorem lineStep_rest_nil (width : Int) (l : List Str) (hw : 0 ≤ width) (h : (lineStep width l).2 = []) :
    (l.flatten.length : Int) ≤ width ∧ (lineStep width l).1 = l.flatten := by
  have hf := fitLine_flatten width 0 l
  have hl := fitLine_le width 0 l (by simpa using hw)
  have hh := lineStep_flatten width l
  rw [h] at hh
  simp only [List.flatten_nil, List.append_nil] at hh
  unfold lineStep at h
  cases hx : (fitLine width 0 l).2 with
  | nil =>
    rw [hx] at hf
    simp only [List.flatten_nil, List.append_nil] at hf
    rw [hf] at hl
    exact ⟨by simpa using hl, hh⟩
  | cons c cs =>
    rw [hx] at h
    simp only at h
    split_ifs at h

theorem lineStep_fits (width : Int) (l : List Str) (h : (l.flatten.length : Int) ≤ width) :
    lineStep width l = (l.flatten, []) := by
  have hf := congrArg List.length (fitLine_flatten width 0 l)
  have hff := fitLine_flatten width 0 l
  unfold lineStep
  cases hx : (fitLine width 0 l).2 with
  | nil =>
    rw [hx] at hff
    simp only [List.flatten_nil, List.append_nil] at hff
    simp only [hff]
  | cons c cs =>
    have := fitLine_rest width 0 l c cs hx
    rw [hx] at hf
    simp only [List.length_append, List.flatten_cons] at hf
    omega

theorem wrapGo_fits (w ind n : Nat) (l : List Str) (hl : l ≠ []) (h : l.flatten.length ≤ w) :
    wrapGo w ind (n + 1) w l = some [l.flatten] := by
  cases l with
  | nil => exact absurd rfl hl
  | cons c cs =>
    unfold wrapGo
    rw [lineStep_fits _ _ (by exact_mod_cast h)]
    cases n <;> rfl

theorem wrapGo_flatten (w ind n : Nat) (width : Int) (l r : List Str) (h : wrapGo w ind n width l = some r) :
    r.flatten = l.flatten := by
  induction n generalizing width l r with
  | zero =>
    cases l with
    | nil => cases h; rfl
    | cons c cs => cases h
  | succ n ih =>
    cases l with
    | nil => cases h; rfl
    | cons c cs =>
      unfold wrapGo at h
      cases hx : wrapGo w ind n ((w : Int) - ind) (lineStep width (c :: cs)).2 with
      | none => rw [hx] at h; cases h
      | some r' =>
        rw [hx] at h
        injection h with h
        rw [← h, List.flatten_cons, ih _ _ _ hx, lineStep_flatten]

theorem split_eq_nil (k : Cls) (t : Str) : split k t = [] ↔ t = [] := by
  constructor
  · intro h
    have := split_flatten k t
    rw [h] at this
    exact this.symm
  · rintro rfl
    rfl

theorem lineStep_ne_nil (width : Int) (hw : 0 ≤ width) (c : Str) (hc : c ≠ []) (cs : List Str) :
    (lineStep width (c :: cs)).1 ≠ [] := by
  have h0 := List.length_pos_iff.2 hc
  rcases fitLine_cases width c cs with ⟨h1, h2⟩ | ⟨h1, h2⟩
  · have : c <+: (fitLine width 0 (c :: cs)).1 := by
      unfold fitLine
      rw [if_pos (by push_cast; omega)]
      exact ⟨_, rfl⟩
    unfold lineStep
    cases hx : (fitLine width 0 (c :: cs)).2 with
    | nil =>
      intro h
      rw [show (fitLine width 0 (c :: cs)).1 = [] from h] at this
      exact hc (List.prefix_nil.1 this)
    | cons d ds =>
      simp only
      split_ifs
      · intro h
        rw [(List.append_eq_nil_iff.1 h).1] at this
        exact hc (List.prefix_nil.1 this)
      · intro h
        rw [show (fitLine width 0 (c :: cs)).1 = [] from h] at this
        exact hc (List.prefix_nil.1 this)
  · unfold lineStep
    rw [h2]
    simp only
    rw [if_pos (by omega)]
    have h3 := cutAt_pos c (spaceLeft width (List.length ([] : Str))) (by
      unfold spaceLeft
      split_ifs <;> simp <;> omega)
    intro h
    rw [List.nil_append, List.take_eq_nil_iff] at h
    rcases h with h | h
    · omega
    · exact hc h

/-- pieces behind the first are as wide as the indentation allows -/
theorem wrapGo_width (w ind n : Nat) (hi : ind < w) (width : Int) (hw : 1 ≤ width) (l r : List Str)
    (h : wrapGo w ind n width l = some r) :
    (∀ p ∈ r.head?, (p.length : Int) ≤ width) ∧ ∀ p ∈ r.tail, ind + p.length ≤ w := by
  induction n generalizing width l r with
  | zero =>
    cases l with
    | nil => cases h; simp
    | cons c cs => cases h
  | succ n ih =>
    cases l with
    | nil => cases h; simp
    | cons c cs =>
      unfold wrapGo at h
      cases hx : wrapGo w ind n ((w : Int) - ind) (lineStep width (c :: cs)).2 with
      | none => rw [hx] at h; cases h
      | some r' =>
        rw [hx] at h
        injection h with h
        obtain ⟨h1, h2⟩ := ih _ (by omega) _ _ hx
        rw [← h]
        refine ⟨?_, ?_⟩
        · intro p hp
          rw [List.head?_cons, Option.mem_some_iff] at hp
          rw [← hp]
          exact lineStep_le width _ hw
        · intro p hp
          rw [List.tail_cons] at hp
          cases r' with
          | nil => simp at hp
          | cons q qs =>
            rcases List.mem_cons.1 hp with rfl | hp
            · have := h1 p (by simp)
              omega
            · exact h2 p (by simpa using hp)

end Verif.Textwrap
