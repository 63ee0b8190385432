import Mathlib.Data.List.Nodup
import Verif.Model.Raypath
import Verif.Lemmas.PyStr
/-! # C09: RAYPATH set-up -/
namespace Verif.Raypath
open Verif.Py

/-- `fromkeys` as a fold from a given start. -/
def fk (acc l : List Str) : List Str := l.foldl (fun acc x => if x ∈ acc then acc else acc ++ [x]) acc

theorem fk_cons (acc : List Str) (x : Str) (l : List Str) : fk acc (x :: l) = fk (if x ∈ acc then acc else acc ++ [x]) l := rfl

theorem fk_prefix (acc l : List Str) : acc <+: fk acc l := by
  induction l generalizing acc with
  | nil => exact List.prefix_rfl
  | cons x l ih =>
    rw [fk_cons]
    split
    · exact ih acc
    · exact (List.prefix_append acc [x]).trans (ih _)

theorem fk_nodup (acc l : List Str) (h : acc.Nodup) : (fk acc l).Nodup := by
  induction l generalizing acc with
  | nil => exact h
  | cons x l ih =>
    rw [fk_cons]; split
    · exact ih acc h
    · rename_i hx
      exact ih _ (by rw [List.nodup_append]; exact ⟨h, by simp, by intro a ha b hb; simp at hb; subst hb; rintro rfl; exact hx ha⟩)

theorem mem_fk (acc l : List Str) (x : Str) : x ∈ fk acc l ↔ x ∈ acc ∨ x ∈ l := by
  induction l generalizing acc with
  | nil => simp [fk]
  | cons y l ih =>
    rw [fk_cons]; split
    · rename_i hy; rw [ih]; simp only [List.mem_cons]
      constructor
      · rintro (h | h) <;> simp [h]
      · rintro (h | rfl | h)
        · exact Or.inl h
        · exact Or.inl hy
        · exact Or.inr h
    · rw [ih]; simp only [List.mem_append, List.mem_singleton, List.mem_cons]; tauto

theorem fk_append (acc l l' : List Str) : fk acc (l ++ l') = fk (fk acc l) l' := by
  simp [fk, List.foldl_append]

theorem fk_self (acc l : List Str) (h : ∀ x ∈ l, x ∈ acc) : fk acc l = acc := by
  induction l with
  | nil => rfl
  | cons x l ih => rw [fk_cons, if_pos (h x (by simp)), ih (fun y hy => h y (by simp [hy]))]

theorem fk_nodup_self (acc l : List Str) (h : (acc ++ l).Nodup) : fk acc l = acc ++ l := by
  induction l generalizing acc with
  | nil => simp [fk]
  | cons x l ih =>
    have hx : x ∉ acc := by
      intro hx; rw [List.nodup_append] at h
      exact h.2.2 x hx x (by simp) rfl
    rw [fk_cons, if_neg hx, ih (acc ++ [x]) (by simpa using h)]
    simp

theorem fk_rt (dir : Str) (hd : dir ≠ ['.']) (l : List Str) :
    fk [] ([['.'], dir] ++ l) = fk [['.'], dir] l := by
  rw [fk_append]
  congr 1
  simp [fk, hd]

/-- C09. RAYPATH set before: the new entries are `.`, the package directory, then (`rest`) the old entries other than these
two, without duplicates, ordered by first appearance. `hd`, `hc`: the package directory is not `.` itself and contains
no separator. -/
theorem C09_entries (dir e : Str) (hd : dir ≠ ['.']) (hc : ':' ∉ dir) :
    ∃ rest, splitOn ':' (setRaypath dir (some e)) = ['.'] :: dir :: rest ∧
      (['.'] :: dir :: rest).Nodup ∧
      (∀ x, x ∈ rest ↔ x ∈ splitOn ':' e ∧ x ≠ ['.'] ∧ x ≠ dir) ∧
      (∀ p, p <+: splitOn ':' e → ∃ q, q <+: rest ∧ ∀ x, x ∈ q ↔ x ∈ p ∧ x ≠ ['.'] ∧ x ≠ dir) := by
  have hpre := fk_prefix [['.'], dir] (splitOn ':' e)
  obtain ⟨rest, hrest⟩ := hpre
  have hn : ([['.'], dir] ++ rest).Nodup := by
    rw [hrest]; exact fk_nodup _ _ (by simp [hd.symm])
  have hsplit : splitOn ':' (setRaypath dir (some e)) = ['.'] :: dir :: rest := by
    unfold setRaypath
    simp only
    have h0 : fromkeys ([['.'], dir] ++ splitOn ':' e) = [['.'], dir] ++ rest := by
      rw [hrest]; exact fk_rt dir hd _
    rw [h0]
    apply splitOn_joinWith
    · simp
    · intro p hp
      rw [hrest] at hp
      rcases (mem_fk _ _ _).1 hp with h | h
      · simp at h
        rcases h with rfl | rfl
        · decide
        · exact hc
      · exact splitOn_pieces ':' e p h
  have hmem : ∀ x, x ∈ rest ↔ x ∈ splitOn ':' e ∧ x ≠ ['.'] ∧ x ≠ dir := by
    intro x
    have h1 : x ∈ [['.'], dir] ++ rest ↔ x ∈ [['.'], dir] ∨ x ∈ splitOn ':' e := by rw [hrest]; exact mem_fk _ _ _
    rw [List.nodup_append] at hn
    simp only [List.mem_append] at h1
    constructor
    · intro hx
      have hnot : x ∉ [['.'], dir] := fun hh => hn.2.2 x hh x hx rfl
      refine ⟨(h1.1 (Or.inr hx)).resolve_left hnot, ?_, ?_⟩
      · rintro rfl; exact hnot (by simp)
      · rintro rfl; exact hnot (by simp)
    · rintro ⟨h2, h3, h4⟩
      exact (h1.2 (Or.inr h2)).resolve_left (by simp [h3, h4])
  refine ⟨rest, hsplit, by simpa using hn, hmem, ?_⟩
  rintro p ⟨t, ht⟩
  have hpre2 := fk_prefix [['.'], dir] p
  obtain ⟨q, hq⟩ := hpre2
  have hqn : ([['.'], dir] ++ q).Nodup := by rw [hq]; exact fk_nodup _ _ (by simp [hd.symm])
  refine ⟨q, ?_, ?_⟩
  · have : fk [['.'], dir] p <+: fk [['.'], dir] (splitOn ':' e) := by
      rw [← ht, fk_append]; exact fk_prefix _ _
    rw [← hq, ← hrest] at this
    exact (List.prefix_append_right_inj _).1 this
  · intro x
    have h1 : x ∈ [['.'], dir] ++ q ↔ x ∈ [['.'], dir] ∨ x ∈ p := by rw [hq]; exact mem_fk _ _ _
    rw [List.nodup_append] at hqn
    simp only [List.mem_append] at h1
    constructor
    · intro hx
      have hnot : x ∉ [['.'], dir] := fun hh => hqn.2.2 x hh x hx rfl
      refine ⟨(h1.1 (Or.inr hx)).resolve_left hnot, ?_, ?_⟩
      · rintro rfl; exact hnot (by simp)
      · rintro rfl; exact hnot (by simp)
    · rintro ⟨h2, h3, h4⟩
      exact (h1.2 (Or.inr h2)).resolve_left (by simp [h3, h4])

/-- C09. RAYPATH not set before: exactly `.` and the package directory. -/
theorem C09_unset (dir : Str) (hc : ':' ∉ dir) : splitOn ':' (setRaypath dir none) = [['.'], dir] := by
  unfold setRaypath
  apply splitOn_joinWith
  · simp
  · intro p hp; simp at hp; rcases hp with rfl | rfl
    · decide
    · exact hc

/-- C09. Doing it again (importing in a child process, calling `set_raypath` once more) changes nothing. -/
theorem C09_idempotent (dir : Str) (hd : dir ≠ ['.']) (hc : ':' ∉ dir) (env : Option Str) :
    setRaypath dir (some (setRaypath dir env)) = setRaypath dir env := by
  have key : ∀ l : List Str, (['.'] :: dir :: l).Nodup → splitOn ':' (setRaypath dir env) = ['.'] :: dir :: l →
      setRaypath dir (some (setRaypath dir env)) = setRaypath dir env := by
    intro l hn hs
    have h1 : setRaypath dir (some (setRaypath dir env)) = joinWith ':' (fromkeys ([['.'], dir] ++ splitOn ':' (setRaypath dir env))) := rfl
    rw [h1, hs]
    have h2 : fromkeys ([['.'], dir] ++ (['.'] :: dir :: l)) = ['.'] :: dir :: l := by
      change fk [] ([['.'], dir] ++ (['.'] :: dir :: l)) = _
      rw [fk_rt dir hd, show ['.'] :: dir :: l = [['.'], dir] ++ l from rfl, fk_append, fk_self _ [['.'], dir] (fun x hx => hx),
        fk_nodup_self _ _ (by simpa using hn)]
    rw [h2, ← hs, joinWith_splitOn]
  cases env with
  | none => exact key [] (by simp [hd.symm]) (C09_unset dir hc)
  | some e =>
    obtain ⟨rest, h1, h2, -, -⟩ := C09_entries dir e hd hc
    exact key rest h2 h1

example : setRaypath "/p/cal".toList (some "/b:/a:.:/b:".toList) = ".:/p/cal:/b:/a:".toList := by decide
example : "/p/cal".toList ≠ ['.'] ∧ ':' ∉ "/p/cal".toList := by decide

end Verif.Raypath
