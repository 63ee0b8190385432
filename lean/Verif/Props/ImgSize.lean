import Verif.Props.ViewHeader
import Verif.Model.Convert
import Verif.Lemmas.Unwrap
import Mathlib.Data.List.Chain

/-! Property C198: the size of an image, whatever its name and its orientation. -/

namespace Verif.ViewHdr
open Verif.Py

/-- a word that announces a number -/
def Marks (w : Str) : Prop := 'X' ∈ w ∨ 'Y' ∈ w

/-- the two lines of an image, in the order `getinfo -d` prints them: which axis, its sign, the number -/
inductive Axes : Str → Str → Bool → Prop
  | yx (s t : Char) (hs : s = '+' ∨ s = '-') (ht : t = '+' ∨ t = '-') : Axes [s, 'Y'] [t, 'X'] true
  | xy (s t : Char) (hs : s = '+' ∨ s = '-') (ht : t = '+' ∨ t = '-') : Axes [s, 'X'] [t, 'Y'] false

/-- a number: one word, read by `int`, without the two letters -/
structure Numeral (pint : Str → Option ℤ) (w : Str) (n : ℤ) : Prop where
  word : w ≠ [] ∧ ∀ c ∈ w, isSpace c = false
  val : pint w = some n
  plain : ¬ Marks w

/-- the words before the size are passed over, or one of them raises -/
theorem sizeGo_words (pint : Str → Option ℤ) (ax : Str) (tail : List Str) (ns : List Str) : ∀ (prev : Str) (xy : ℤ × ℤ),
    ((prev :: ns ++ [ax]).IsChain (fun a b => Marks a → pint b ≠ none) →
      ∃ xy', sizeGo pint prev (ns ++ ax :: tail) xy = sizeGo pint ax tail xy') ∧
    (¬ (prev :: ns ++ [ax]).IsChain (fun a b => Marks a → pint b ≠ none) →
      sizeGo pint prev (ns ++ ax :: tail) xy = .error .ValueError) := by
  have step : ∀ (prev w : Str) (ws : List Str) (xy : ℤ × ℤ), ((Marks prev → pint w ≠ none) →
      ∃ xy', sizeGo pint prev (w :: ws) xy = sizeGo pint w ws xy') ∧
      (¬ (Marks prev → pint w ≠ none) → sizeGo pint prev (w :: ws) xy = .error .ValueError) := by
    intro prev w ws xy
    unfold Marks
    rw [sizeGo]
    by_cases hX : 'X' ∈ prev
    · rw [if_pos hX]
      cases hw : pint w with
      | none => simp [hX]
      | some n => exact ⟨fun _ => ⟨_, rfl⟩, by simp⟩
    · rw [if_neg hX]
      by_cases hY : 'Y' ∈ prev
      · rw [if_pos hY]
        cases hw : pint w with
        | none => simp [hY]
        | some n => exact ⟨fun _ => ⟨_, rfl⟩, by simp⟩
      · rw [if_neg hY]
        exact ⟨fun _ => ⟨_, rfl⟩, by simp [hX, hY]⟩
  induction ns with
  | nil =>
    intro prev xy
    obtain ⟨h1, h2⟩ := step prev ax tail xy
    simp only [List.cons_append, List.nil_append, List.isChain_cons_cons, List.isChain_singleton, and_true]
    exact ⟨h1, h2⟩
  | cons n ns ih =>
    intro prev xy
    obtain ⟨h1, h2⟩ := step prev n (ns ++ ax :: tail) xy
    simp only [List.cons_append, List.isChain_cons_cons]
    constructor
    · rintro ⟨ha, hb⟩
      obtain ⟨xy1, e1⟩ := h1 ha
      obtain ⟨xy2, e2⟩ := (ih n xy1).1 hb
      exact ⟨xy2, e1.trans e2⟩
    · intro hn
      by_cases ha : Marks prev → pint n ≠ none
      · obtain ⟨xy1, e1⟩ := h1 ha
        rw [e1]
        exact (ih n xy1).2 fun hb => hn ⟨ha, hb⟩
      · exact h2 ha

/-- The claim: the size is read whatever the name of the file. -/
def C198_statement : Prop := ∀ (pint : Str → Option ℤ) (name : List Str) (a b h w : Str) (f : Bool) (m n : ℤ),
  name ≠ [] → (∀ s ∈ name, s ≠ [] ∧ ∀ c ∈ s, isSpace c = false) → Axes a b f → Numeral pint h m → Numeral pint w n →
  (∀ s, Marks s → pint s = none) → imgSize pint (spaced (name ++ [a, h, b, w])) = .ok (if f then (n, m) else (m, n))

theorem axes_words {a b : Str} {f : Bool} (h : Axes a b f) :
    (a ≠ [] ∧ ∀ c ∈ a, isSpace c = false) ∧ (b ≠ [] ∧ ∀ c ∈ b, isSpace c = false) ∧ Marks a ∧ Marks b := by
  cases h with
  | yx s t hs ht => rcases hs with rfl | rfl <;> rcases ht with rfl | rfl <;> (unfold Marks; decide)
  | xy s t hs ht => rcases hs with rfl | rfl <;> rcases ht with rfl | rfl <;> (unfold Marks; decide)

theorem sizeGo_end (pint : Str → Option ℤ) {a b h w : Str} {f : Bool} {m n : ℤ} (ax : Axes a b f) (hh : Numeral pint h m)
    (hw : Numeral pint w n) (xy : ℤ × ℤ) : sizeGo pint a [h, b, w] xy = .ok (if f then (n, m) else (m, n)) := by
  have h1 : 'X' ∉ h ∧ 'Y' ∉ h := not_or.mp hh.plain
  cases ax with
  | yx s t hs ht =>
    rcases hs with rfl | rfl <;> rcases ht with rfl | rfl <;> simp [sizeGo, hh.val, hw.val, h1.1, h1.2]
  | xy s t hs ht =>
    rcases hs with rfl | rfl <;> rcases ht with rfl | rfl <;> simp [sizeGo, hh.val, hw.val, h1.1, h1.2]

/-- **C198** exactly when it is read: of the words of the name only those after the first matter; each of them with a
capital X or Y must be followed by a number (the first axis is not one). Otherwise `ValueError`. -/
theorem C198_iff (pint : Str → Option ℤ) (n1 : Str) (ns : List Str) (a b h w : Str) (f : Bool) (m n : ℤ)
    (hn : ∀ s ∈ n1 :: ns, s ≠ [] ∧ ∀ c ∈ s, isSpace c = false) (ax : Axes a b f) (hh : Numeral pint h m) (hw : Numeral pint w n) :
    ((ns ++ [a]).IsChain (fun s s' => Marks s → pint s' ≠ none) →
      imgSize pint (spaced (n1 :: ns ++ [a, h, b, w])) = .ok (if f then (n, m) else (m, n))) ∧
    (¬ (ns ++ [a]).IsChain (fun s s' => Marks s → pint s' ≠ none) →
      imgSize pint (spaced (n1 :: ns ++ [a, h, b, w])) = .error .ValueError) := by
  obtain ⟨wa, wb, _, _⟩ := axes_words ax
  have ht : tokens (spaced (n1 :: ns ++ [a, h, b, w])) = n1 :: ns ++ [a, h, b, w] := by
    apply tokens_spaced
    intro s hs
    rcases List.mem_append.mp hs with hs | hs
    · exact hn s hs
    · simp only [List.mem_cons, List.not_mem_nil, or_false] at hs
      rcases hs with rfl | rfl | rfl | rfl
      · exact wa
      · exact hh.word
      · exact wb
      · exact hw.word
  unfold imgSize
  rw [ht]
  cases ns with
  | nil =>
    simp only [List.cons_append, List.nil_append]
    exact ⟨fun _ => sizeGo_end pint ax hh hw _, fun hc => absurd (List.isChain_singleton a) hc⟩
  | cons s ns =>
    simp only [List.cons_append]
    obtain ⟨g1, g2⟩ := sizeGo_words pint a [h, b, w] ns s (1, 1)
    refine ⟨fun hc => ?_, fun hc => g2 hc⟩
    obtain ⟨xy, e⟩ := g1 hc
    rw [e]
    exact sizeGo_end pint ax hh hw xy

/-- **C198** (part) every name without blanks, with any letters, and every orientation. Missing: names with blanks, where the
words after the first can be taken for an axis (`C198_iff`, `C198_refuted`). -/
theorem C198_size_partial (pint : Str → Option ℤ) (name a b h w : Str) (f : Bool) (m n : ℤ)
    (hn : name ≠ [] ∧ ∀ c ∈ name, isSpace c = false) (ax : Axes a b f) (hh : Numeral pint h m) (hw : Numeral pint w n) :
    imgSize pint (spaced [name, a, h, b, w]) = .ok (if f then (n, m) else (m, n)) :=
  (C198_iff pint name [] a b h w f m n (by simpa using hn) ax hh hw).1 (List.isChain_singleton a)

/-- a numeral of the examples: `2` is read as two -/
def twoInt (w : Str) : Option ℤ := if w = ['2'] then some 2 else none

theorem two_numeral : Numeral twoInt ['2'] 2 := ⟨by decide, by decide, by unfold Marks; decide⟩

/-- `my X.hdr` -/
theorem C198_refuted : ¬ C198_statement := by
  intro h
  have h1 := h twoInt ["my".toList, "X.hdr:".toList] "-Y".toList "+X".toList ['2'] ['2'] true 2 2 (by simp) (by decide)
    (.yx '-' '+' (by simp) (by simp)) two_numeral two_numeral (fun s hs => by
      unfold twoInt
      rw [if_neg]
      rintro rfl
      revert hs
      unfold Marks
      decide)
  have h2 := (C198_iff twoInt "my".toList ["X.hdr:".toList] "-Y".toList "+X".toList ['2'] ['2'] true 2 2 (by decide)
    (.yx '-' '+' (by simp) (by simp)) two_numeral two_numeral).2 (by
      intro hc
      have := (List.isChain_cons_cons.mp hc).1 (Or.inl (by decide))
      exact this (by decide))
  rw [show ["my".toList, "X.hdr:".toList] ++ ["-Y".toList, ['2'], "+X".toList, ['2']]
    = "my".toList :: ["X.hdr:".toList] ++ ["-Y".toList, ['2'], "+X".toList, ['2']] from rfl, h2] at h1
  cases h1

/-- **C198** a file that cannot be opened, or that has no size, counts as one pixel -/
theorem C198_one {α P : Type} (env : Conv.Env α P) (path : Str) (hp : path ≠ [] ∧ ∀ c ∈ path, isSpace c = false) :
    imgSize env.pint (Conv.dimsText env path none) = .ok (1, 1) ∧
    imgSize env.pint (Conv.dimsText env path (some .blank)) = .ok (1, 1) := by
  have hw : tokens (path ++ [':']) = [path ++ [':']] := by
    have hs : ∀ c ∈ path ++ [':'], isSpace c = false := by
      intro c hc
      rcases List.mem_append.mp hc with hc | hc
      · exact hp.2 c hc
      · rw [List.mem_singleton.mp hc]; decide
    have := tokens_spaced [path ++ [':']] (by simpa using hs)
    rwa [show spaced [path ++ [':']] = ' ' :: (path ++ [':']) by simp [spaced], Textwrap.tokens_cons_space _ _ (by decide)] at this
  have h1 : tokens (Conv.dimsText env path none) = [path ++ [':'], "cannot".toList, "open".toList] := by
    show tokens (path ++ ": cannot open\n".toList) = _
    rw [show path ++ ": cannot open\n".toList = (path ++ [':']) ++ ' ' :: "cannot open\n".toList by simp,
      Textwrap.tokens_space_mid _ _ _ (by decide), hw, show tokens "cannot open\n".toList = ["cannot".toList, "open".toList] by decide]
    rfl
  have h2 : tokens (Conv.dimsText env path (some .blank)) = [path ++ [':']] := by
    show tokens (path ++ ": \n".toList) = _
    rw [show path ++ ": \n".toList = (path ++ [':']) ++ ' ' :: "\n".toList by simp,
      Textwrap.tokens_space_mid _ _ _ (by decide), hw, show tokens "\n".toList = [] by decide]
    rfl
  constructor
  · unfold imgSize
    rw [h1]
    simp [sizeGo]
  · unfold imgSize
    rw [h2]

/-- a name full of the two letters, rows first -/
example : imgSize twoInt (spaced ["XYX.hdr:".toList, "-Y".toList, ['2'], "+X".toList, ['2']]) = .ok (2, 2) :=
  C198_size_partial twoInt _ _ _ _ _ true 2 2 (by decide) (.yx '-' '+' (by simp) (by simp)) two_numeral two_numeral

end Verif.ViewHdr
