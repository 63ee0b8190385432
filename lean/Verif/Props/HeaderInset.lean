import Verif.Lemmas.HeaderTree

/-! Indentation with spaces (C156). -/

namespace Verif.Header
open Verif.Py

/-! Spec: an inset is runs of spaces separated by tabs -/

/-- `n₀` spaces, a tab, `n₁` spaces, a tab, ... -/
def insetText : List ℕ → Str
  | [] => []
  | [n] => List.replicate n ' '
  | n :: m :: ns => List.replicate n ' ' ++ '\t' :: insetText (m :: ns)

/-- every tab counts one, every run of spaces one per four -/
def insetDepth (ns : List ℕ) : ℕ := (ns.length - 1) + (ns.map (· / 4)).sum

theorem insetLen_spaces (n : ℕ) (r : Str) (h : r = [] ∨ ∃ t, r = '\t' :: t) :
    insetLen (List.replicate n ' ' ++ r) = n / 4 + insetLen r := by
  induction n using Nat.strong_induction_on with
  | _ n ih =>
    match n, ih with
    | 0, _ => simp
    | 1, _ => rcases h with rfl | ⟨t, rfl⟩ <;> simp [insetLen, List.replicate_succ]
    | 2, _ => rcases h with rfl | ⟨t, rfl⟩ <;> simp [insetLen, List.replicate_succ]
    | 3, _ => rcases h with rfl | ⟨t, rfl⟩ <;> simp [insetLen, List.replicate_succ]
    | m + 4, ih =>
      have e : List.replicate (m + 4) ' ' ++ r = ' ' :: ' ' :: ' ' :: ' ' :: (List.replicate m ' ' ++ r) := by
        simp [List.replicate_succ]
      rw [e, insetLen, ih m (by omega)]
      omega

theorem insetLen_insetText (ns : List ℕ) : insetLen (insetText ns) = insetDepth ns := by
  induction ns with
  | nil => rfl
  | cons n ns ih =>
    cases ns with
    | nil =>
      have := insetLen_spaces n [] (Or.inl rfl)
      simp only [List.append_nil] at this
      rw [insetText, this]
      simp [insetDepth, insetLen]
    | cons m ms =>
      rw [insetText, insetLen_spaces n _ (Or.inr ⟨_, rfl⟩)]
      have e : insetLen ('\t' :: insetText (m :: ms)) = insetLen (insetText (m :: ms)) + 1 := by simp [insetLen]
      rw [e, ih]
      simp only [insetDepth, List.length_cons, List.map_cons, List.sum_cons]
      omega

theorem insetText_space (ns : List ℕ) : ∀ c ∈ insetText ns, isSpace c = true := by
  induction ns with
  | nil => simp [insetText]
  | cons n ns ih =>
    cases ns with
    | nil =>
      intro c hc
      rw [List.eq_of_mem_replicate hc]; decide
    | cons m ms =>
      intro c hc
      simp only [insetText, List.mem_append, List.mem_cons] at hc
      rcases hc with hc | rfl | hc
      · rw [List.eq_of_mem_replicate hc]; decide
      · decide
      · exact ih c hc

theorem insetText_nb (ns : List ℕ) : NB (insetText ns) := by
  induction ns with
  | nil => simp [insetText, NB]
  | cons n ns ih =>
    cases ns with
    | nil =>
      intro c hc
      rw [List.eq_of_mem_replicate hc]; decide
    | cons m ms =>
      intro c hc
      simp only [insetText, List.mem_append, List.mem_cons] at hc
      rcases hc with hc | rfl | hc
      · rw [List.eq_of_mem_replicate hc]; decide
      · decide
      · exact ih c hc

/-- every text of spaces and tabs is such an inset -/
theorem insetText_all (u : Str) (h : ∀ c ∈ u, c = ' ' ∨ c = '\t') : ∃ ns, insetText ns = u := by
  induction u with
  | nil => exact ⟨[], rfl⟩
  | cons c u ih =>
    obtain ⟨ns, rfl⟩ := ih fun c hc => h c (List.mem_cons_of_mem _ hc)
    rcases h c List.mem_cons_self with rfl | rfl
    · match ns with
      | [] => exact ⟨[1], rfl⟩
      | [n] => exact ⟨[n + 1], rfl⟩
      | n :: m :: ms => exact ⟨(n + 1) :: m :: ms, by simp [insetText, List.replicate_succ]⟩
    · match ns with
      | [] => exact ⟨[0, 0], rfl⟩
      | n :: ms => exact ⟨0 :: n :: ms, by simp [insetText]⟩

theorem cleanLine_inset (u s : Str) (hu : ∀ c ∈ u, isSpace c = true) : cleanLine (u ++ s) = cleanLine s := by
  unfold cleanLine
  induction u with
  | nil => rfl
  | cons c u ih =>
    rw [List.cons_append, Conv.strip_cons _ _ (hu c List.mem_cons_self),
      ih fun c hc => hu c (List.mem_cons_of_mem _ hc)]

/-- **C156** the depth of a line indented with spaces and tabs -/
theorem C156_depth (ns : List ℕ) (a : Char) (t : Str) (ha : isSpace a = false) :
    lineDepth (insetText ns ++ a :: t) = insetDepth ns := by
  unfold lineDepth
  rw [(takeWhile_append_stop isSpace (insetText ns) a t (insetText_space ns) ha).1, insetLen_insetText]

/-- a line of the file: inset and text -/
structure Body (s : Str) : Prop where
  nb : NB s
  head : ∃ a t, s = a :: t ∧ isSpace a = false

theorem step_inset (st : St) (u v s : Str) (hu : ∀ c ∈ u, isSpace c = true) (hv : ∀ c ∈ v, isSpace c = true)
    (hd : lineDepth (u ++ s) = lineDepth (v ++ s)) : step st (u ++ s) = step st (v ++ s) := by
  unfold step
  rw [cleanLine_inset u s hu, cleanLine_inset v s hv, hd]

theorem run_inset (ls : List (List ℕ × Str)) (hb : ∀ l ∈ ls, Body l.2) (st : St) :
    run st (ls.map fun l => insetText l.1 ++ l.2) =
      run st (ls.map fun l => List.replicate (insetDepth l.1) '\t' ++ l.2) := by
  induction ls generalizing st with
  | nil => rfl
  | cons l ls ih =>
    simp only [List.map_cons, run]
    have hl := hb l List.mem_cons_self
    rw [step_inset st (insetText l.1) (List.replicate (insetDepth l.1) '\t') l.2 (insetText_space _)
      (fun c hc => by rw [List.eq_of_mem_replicate hc]; decide) (by
        rw [lineDepth_tabs _ _ hl.head]
        obtain ⟨a, t, e, ha⟩ := hl.head
        rw [e, C156_depth _ _ _ ha])]
    cases step st (List.replicate (insetDepth l.1) '\t' ++ l.2) with
    | error e => rfl
    | ok st' => exact ih (fun x hx => hb x (List.mem_cons_of_mem _ hx)) st'

/-- **C156** a header indented with spaces, tabs or both is cleaned like the one whose lines begin with a tab for every tab
and every four spaces; odd spaces do not count -/
theorem C156_clean (wrap : Nat → Str → Str → List Str) (width : Nat) (ls : List (List ℕ × Str))
    (hb : ∀ l ∈ ls, Body l.2) :
    cleanText wrap width (joinWith '\n' (ls.map fun l => insetText l.1 ++ l.2)) =
      cleanText wrap width (joinWith '\n' (ls.map fun l => List.replicate (insetDepth l.1) '\t' ++ l.2)) := by
  have ok : ∀ f : List ℕ → Str, (∀ ns, NB (f ns)) →
      ∀ x ∈ ls.map (fun l => f l.1 ++ l.2), x ≠ [] ∧ NB x := by
    intro f hf x hx
    obtain ⟨l, hl, rfl⟩ := List.mem_map.1 hx
    obtain ⟨a, t, e, -⟩ := (hb l hl).head
    refine ⟨by simp [e], fun c hc => ?_⟩
    rcases List.mem_append.1 hc with hc | hc
    · exact hf l.1 c hc
    · exact (hb l hl).nb c hc
  unfold cleanText
  rw [splitlines_join _ (ok insetText insetText_nb),
    splitlines_join _ (ok (fun ns => List.replicate (insetDepth ns) '\t')
      (fun ns c hc => by rw [List.eq_of_mem_replicate hc]; decide)), run_inset ls hb]

/-- the same with the parts of the header: two ways of indenting to the same depths give the same result -/
theorem C156_same (wrap : Nat → Str → Str → List Str) (width : Nat) (ls : List (List ℕ × List ℕ × Str))
    (hb : ∀ l ∈ ls, Body l.2.2) (hd : ∀ l ∈ ls, insetDepth l.1 = insetDepth l.2.1) :
    cleanText wrap width (joinWith '\n' (ls.map fun l => insetText l.1 ++ l.2.2)) =
      cleanText wrap width (joinWith '\n' (ls.map fun l => insetText l.2.1 ++ l.2.2)) := by
  have h1 := C156_clean wrap width (ls.map fun l => (l.1, l.2.2)) (by
    intro x hx; obtain ⟨l, hl, rfl⟩ := List.mem_map.1 hx; exact hb l hl)
  have h2 := C156_clean wrap width (ls.map fun l => (l.2.1, l.2.2)) (by
    intro x hx; obtain ⟨l, hl, rfl⟩ := List.mem_map.1 hx; exact hb l hl)
  simp only [List.map_map, Function.comp_def] at h1 h2
  rw [h1, h2]
  congr 2
  exact List.map_congr_left fun l hl => by rw [hd l hl]

/-- eight spaces are two levels, as are a tab and five spaces -/
example : insetDepth [8] = 2 ∧ insetDepth [0, 5] = 2 ∧ insetText [0, 5] = "\t     ".toList ∧
    Body "rpict -vf view".toList :=
  ⟨rfl, rfl, rfl, ⟨by unfold NB; decide, ⟨_, _, rfl, by decide⟩⟩⟩

end Verif.Header
