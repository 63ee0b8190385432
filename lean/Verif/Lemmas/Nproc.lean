import Mathlib.Data.Nat.Digits.Lemmas
import Verif.Model.Nproc
namespace Verif.Nproc
open Verif.Py

theorem toNat_digit {d : Nat} (h : d < 10) : (Char.ofNat (48 + d)).toNat = 48 + d := by
  interval_cases d <;> rfl

theorem isDig_digit {d : Nat} (h : d < 10) : isDig (Char.ofNat (48 + d)) = true := by
  interval_cases d <;> rfl

theorem not_space_of_isDig {c : Char} (h : isDig c = true) : isSpace c = false := by
  simp only [isDig, Bool.and_eq_true, decide_eq_true_eq] at h
  simp only [isSpace]
  simp
  omega

theorem parseDigits_append_digits (l : List Nat) (hl : ∀ d ∈ l, d < 10) (prev : Bool) (acc : Nat) (hne : l ≠ [] ∨ prev) :
    parseDigits prev acc (l.map (fun d => Char.ofNat (48 + d))) = some (l.foldl (fun a d => 10 * a + d) acc) := by
  induction l generalizing prev acc with
  | nil => simp at hne; simp [parseDigits, hne]
  | cons d l ih =>
    have hd : d < 10 := hl d (by simp)
    have := ih (fun x hx => hl x (by simp [hx])) true (10 * acc + d) (by simp)
    simp only [List.map_cons, List.foldl_cons, parseDigits, isDig_digit hd, if_true, toNat_digit hd]
    simpa using this

theorem foldl_reverse_digits (l : List Nat) :
    l.reverse.foldl (fun a d => 10 * a + d) 0 = Nat.ofDigits 10 l := by
  rw [List.foldl_reverse]
  induction l with
  | nil => rfl
  | cons d l ih => simp only [List.foldr_cons, Nat.ofDigits_cons]; rw [ih]; ring

theorem natStr_eq (n : Nat) : ∃ l : List Nat, l ≠ [] ∧ (∀ d ∈ l, d < 10) ∧
    natStr n = l.map (fun d => Char.ofNat (48 + d)) ∧ l.foldl (fun a d => 10 * a + d) 0 = n := by
  by_cases h : n = 0
  · subst h; exact ⟨[0], by simp, by simp, by simp [natStr], by simp⟩
  · refine ⟨(Nat.digits 10 n).reverse, by simp [Nat.digits_eq_nil_iff_eq_zero, h], ?_, ?_, ?_⟩
    · intro d hd; exact Nat.digits_lt_base (by norm_num) (by simpa using hd)
    · simp [natStr, h]
    · rw [foldl_reverse_digits, Nat.ofDigits_digits]

theorem strip_of_no_space (s : Str) (h : ∀ c ∈ s, isSpace c = false) : strip s = s := by
  have h1 : ∀ t : Str, (∀ c ∈ t, isSpace c = false) → t.dropWhile isSpace = t := by
    intro t ht
    cases t with
    | nil => rfl
    | cons c t => simp [List.dropWhile, ht c (by simp)]
  rw [strip, lstrip, h1 s h, rstrip, h1 s.reverse (by simpa using h), List.reverse_reverse]

theorem natStr_no_space (n : Nat) : ∀ c ∈ natStr n, isDig c = true := by
  obtain ⟨l, -, hl, h, -⟩ := natStr_eq n
  rw [h]; intro c hc
  obtain ⟨d, hd, rfl⟩ := List.mem_map.1 hc
  exact isDig_digit (hl d hd)

/-- Reading back the text written for a number gives the number. -/
theorem parse_natStr (n : Nat) : parseDigits false 0 (natStr n) = some n := by
  obtain ⟨l, hne, hl, h, hf⟩ := natStr_eq n
  rw [h, parseDigits_append_digits l hl false 0 (Or.inl hne), hf]

theorem natStr_head (n : Nat) : ∃ c t, natStr n = c :: t ∧ isDig c = true := by
  obtain ⟨l, hne, hl, h, -⟩ := natStr_eq n
  cases l with
  | nil => exact absurd rfl hne
  | cons d l => exact ⟨_, _, by rw [h, List.map_cons], isDig_digit (hl d (by simp))⟩

/-- `int(str(n)) == n` for every Python int. -/
theorem pyInt_intStr (n : Int) : pyInt (intStr n) = some n := by
  rcases n with n | n
  · have hs : strip (natStr n) = natStr n :=
      strip_of_no_space _ (fun c hc => not_space_of_isDig (natStr_no_space n c hc))
    obtain ⟨c, t, hct, hd⟩ := natStr_head n
    have hp := parse_natStr n
    simp only [pyInt, intStr, hs]
    rw [hct] at hp ⊢
    have h1 : c ≠ '-' := by rintro rfl; revert hd; decide
    have h2 : c ≠ '+' := by rintro rfl; revert hd; decide
    split
    · rename_i r heq; simp at heq; exact absurd heq.1 h1
    · rename_i r heq; simp at heq; exact absurd heq.1 h2
    · simp [hp]
  · have hs : strip ('-' :: natStr (n+1)) = '-' :: natStr (n+1) := by
      apply strip_of_no_space
      intro c hc
      rcases List.mem_cons.1 hc with rfl | hc
      · decide
      · exact not_space_of_isDig (natStr_no_space _ c hc)
    simp only [pyInt, intStr, hs, parse_natStr]
    congr 1

end Verif.Nproc
