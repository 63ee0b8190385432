import Mathlib.Data.List.Basic
import Mathlib.Tactic.Common
import Verif.Model.Py
namespace Verif.Py

theorem splitOn_ne_nil (sep : Char) (s : Str) : splitOn sep s ≠ [] := by
  cases s with
  | nil => simp [splitOn]
  | cons c cs => simp only [splitOn]; split
                 · simp
                 · split <;> simp

theorem splitOn_no_sep (sep : Char) (s : Str) (h : sep ∉ s) : splitOn sep s = [s] := by
  induction s with
  | nil => rfl
  | cons c cs ih =>
    have hc : c ≠ sep := by rintro rfl; simp at h
    simp only [splitOn, hc, if_false]
    rw [ih (fun hh => h (by simp [hh]))]

theorem splitOn_append (sep : Char) (p s : Str) (h : sep ∉ p) : splitOn sep (p ++ sep :: s) = p :: splitOn sep s := by
  induction p with
  | nil => simp [splitOn]
  | cons c cs ih =>
    have hc : c ≠ sep := by rintro rfl; simp at h
    simp only [List.cons_append, splitOn, hc, if_false]
    rw [ih (fun hh => h (by simp [hh]))]

/-- Splitting a joined list gives the list back when no piece contains the separator. -/
theorem splitOn_joinWith (sep : Char) (l : List Str) (hl : l ≠ []) (h : ∀ p ∈ l, sep ∉ p) :
    splitOn sep (joinWith sep l) = l := by
  induction l with
  | nil => exact absurd rfl hl
  | cons p l ih =>
    cases l with
    | nil => simp only [joinWith]; exact splitOn_no_sep sep p (h p (by simp))
    | cons q l =>
      simp only [joinWith]
      rw [splitOn_append sep p _ (h p (by simp)), ih (by simp) (fun x hx => h x (by simp [hx]))]

theorem splitOn_pieces (sep : Char) (s : Str) : ∀ p ∈ splitOn sep s, sep ∉ p := by
  induction s with
  | nil => simp [splitOn]
  | cons c cs ih =>
    simp only [splitOn]
    split
    · rename_i hc; intro p hp
      rcases List.mem_cons.1 hp with rfl | hp
      · simp
      · exact ih p hp
    · rename_i hc
      split
      · rename_i h; exact absurd h (splitOn_ne_nil sep cs)
      · rename_i q qs h
        intro p hp
        rcases List.mem_cons.1 hp with rfl | hp
        · have := ih q (by rw [h]; simp)
          simp only [List.mem_cons, not_or]; exact ⟨fun e => hc e.symm, this⟩
        · exact ih p (by rw [h]; simp [hp])

/-- Joining the pieces gives the text back. -/
theorem joinWith_splitOn (sep : Char) (s : Str) : joinWith sep (splitOn sep s) = s := by
  induction s with
  | nil => rfl
  | cons c cs ih =>
    simp only [splitOn]
    split
    · rename_i hc
      cases h : splitOn sep cs with
      | nil => exact absurd h (splitOn_ne_nil sep cs)
      | cons q qs => rw [h] at ih; simp [joinWith, ih, hc]
    · split
      · rename_i h; exact absurd h (splitOn_ne_nil sep cs)
      · rename_i q qs h
        rw [h] at ih
        cases qs with
        | nil => simp [joinWith] at ih ⊢; exact ih
        | cons r rs => simp [joinWith] at ih ⊢; exact ih

end Verif.Py
