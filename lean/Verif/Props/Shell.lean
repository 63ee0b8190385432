import Verif.Model.Shell
import Mathlib.Tactic.NormNum
/-! # Properties of the command lines given to the Radiance tools: C117, C118 -/
namespace Verif.Shell
open Verif.Py

/-! ## reading words -/

theorem quote_run (t : Str) (tok rest : Str) (b : Bool) (h : '\'' ∉ t) :
    shGo (.quote '\'') tok b (t ++ '\'' :: rest) = shGo .word (tok ++ t) true rest := by
  induction t generalizing tok b with
  | nil => simp [shGo]
  | cons c t ih =>
    have hc : c ≠ '\'' := fun e => h (by rw [e]; exact List.mem_cons_self)
    have ht : '\'' ∉ t := fun e => h (List.mem_cons_of_mem _ e)
    rw [List.cons_append, shGo, if_neg hc, if_neg (by simp), ih _ _ ht]
    simp

/-- characters with no meaning to `shlex` -/
def plain (c : Char) : Bool := !(isWs c) && !(isQuote c) && !(c = '\\')

theorem word_run (t : Str) (tok rest : Str) (b : Bool) (h : ∀ c ∈ t, plain c = true) :
    shGo .word tok b (t ++ rest) = shGo .word (tok ++ t) b rest := by
  induction t generalizing tok with
  | nil => simp
  | cons c t ih =>
    have hc := h c List.mem_cons_self
    unfold plain at hc
    simp only [Bool.and_eq_true, Bool.not_eq_true', decide_eq_false_iff_not] at hc
    rw [List.cons_append, shGo, if_neg (by simp [hc.1.1]), if_neg (by simp [hc.1.2]), if_neg hc.2,
      ih _ fun d hd => h d (List.mem_cons_of_mem _ hd)]
    simp

/-- a run of plain characters is one word -/
theorem space_run (t : Str) (rest : Str) (tok : Str) (b : Bool) (hne : t ≠ []) (h : ∀ c ∈ t, plain c = true) :
    shGo .space tok b (t ++ rest) = shGo .word t false rest := by
  match t, hne with
  | c :: t, _ =>
    have hc := h c List.mem_cons_self
    unfold plain at hc
    simp only [Bool.and_eq_true, Bool.not_eq_true', decide_eq_false_iff_not] at hc
    rw [List.cons_append, shGo, if_neg (by simp [hc.1.1]), if_neg hc.2, if_neg (by simp [hc.1.2]),
      word_run _ _ _ _ fun d hd => h d (List.mem_cons_of_mem _ hd)]
    rfl

theorem word_space (tok rest : Str) (b : Bool) (h : tok ≠ [] ∨ b = true) :
    shGo .word tok b (' ' :: rest) = (shGo .space [] false rest).map (tok :: ·) := by
  rw [shGo, if_pos (by decide), if_pos h]

theorem space_quote (tok rest : Str) (b : Bool) :
    shGo .space tok b ('\'' :: rest) = shGo (.quote '\'') [] true rest := by
  rw [shGo, if_neg (by decide), if_neg (by decide), if_pos (by decide)]

/-- the lines between quotes -/
theorem lines_run (hs : List Str) (hne : hs ≠ []) (h : ∀ l ∈ hs, '\'' ∉ l) :
    shGo (.quote '\'') [] true (joinQuoted hs ++ ['\'']) = .ok hs := by
  induction hs with
  | nil => exact absurd rfl hne
  | cons l ls ih =>
    have hl := h l List.mem_cons_self
    match ls, ih with
    | [], _ =>
      unfold joinQuoted
      rw [quote_run _ _ _ _ hl]
      simp [shGo]
    | l' :: ls, ih =>
      have e : joinQuoted (l :: l' :: ls) ++ ['\''] =
          l ++ '\'' :: (' ' :: '\'' :: (joinQuoted (l' :: ls) ++ ['\''])) := by
        rw [joinQuoted]; simp
      rw [e, quote_run _ _ _ _ hl, word_space _ _ _ (Or.inr rfl), space_quote,
        ih (by simp) fun x hx => h x (List.mem_cons_of_mem _ hx)]
      simp [Except.map]

/-! ## C117 -/

/-- **C117**, the full claim: `getinfo` gets every header line as one argument. -/
def C117_statement : Prop := ∀ header : List Str, addLinesArgv header = .ok ("getinfo".toList :: "-a".toList :: header)

/-- **C117** holds for every nonempty list of lines without single quotes. -/
theorem C117_lines_partial (header : List Str) (hne : header ≠ []) (h : ∀ l ∈ header, '\'' ∉ l) :
    addLinesArgv header = .ok ("getinfo".toList :: "-a".toList :: header) := by
  have e : addLinesText header =
      "getinfo".toList ++ ' ' :: ("-a".toList ++ ' ' :: '\'' :: (joinQuoted header ++ ['\''])) := by
    unfold addLinesText; simp
  unfold addLinesArgv shSplit
  rw [e, space_run _ _ _ _ (by decide) (by decide), word_space _ _ _ (Or.inl (by decide)),
    space_run _ _ _ _ (by decide) (by decide), word_space _ _ _ (Or.inl (by decide)), space_quote, lines_run header hne h]
  rfl

/-- **C117** with no lines at all one empty argument is passed. -/
theorem C117_empty : addLinesArgv [] = .ok ["getinfo".toList, "-a".toList, []] := by decide +kernel

/-- without double quotes and backslashes only the number of single quotes decides whether the text can be split -/
theorem odd_run (t tok : Str) (b : Bool) (hb : ∀ c ∈ t, c ≠ '"' ∧ c ≠ '\\') :
    (shGo (.quote '\'') tok b t = .error .ValueError ↔ t.count '\'' % 2 = 0) ∧
      (∀ m : Mode, m = .word ∨ m = .space → (shGo m tok b t = .error .ValueError ↔ t.count '\'' % 2 = 1)) := by
  induction t generalizing tok b with
  | nil =>
    refine ⟨by simp [shGo], ?_⟩
    rintro m (rfl | rfl)
    · rw [shGo]; split_ifs <;> simp
    · simp [shGo]
  | cons c t ih =>
    obtain ⟨h1, h2⟩ := hb c List.mem_cons_self
    have iht := fun tok b => ih tok b fun d hd => hb d (List.mem_cons_of_mem _ hd)
    by_cases hc : c = '\''
    · subst hc
      have e : ('\'' :: t).count '\'' = t.count '\'' + 1 := by simp
      rw [e]
      refine ⟨?_, ?_⟩
      · rw [shGo, if_pos rfl, (iht _ _).2 .word (Or.inl rfl)]; omega
      · rintro m (rfl | rfl)
        · rw [shGo, if_neg (by decide), if_pos (by decide), (iht _ _).1]; omega
        · rw [space_quote, (iht _ _).1]; omega
    · have e : (c :: t).count '\'' = t.count '\'' := by simp [hc]
      rw [e]
      have hq : isQuote c = false := by unfold isQuote; simp [hc, h1]
      have hmap : ∀ (x : Except PyErr (List Str)) (w : Str), x.map (w :: ·) = .error .ValueError ↔ x = .error .ValueError := by
        intro x w; cases x <;> simp [Except.map]
      refine ⟨?_, ?_⟩
      · rw [shGo, if_neg hc, if_neg (by simp [h2])]
        exact (iht _ _).1
      · rintro m (rfl | rfl)
        · rw [shGo]
          by_cases hw : isWs c = true
          · rw [if_pos hw]
            split_ifs
            · rw [hmap]; exact (iht _ _).2 .space (Or.inr rfl)
            · exact (iht _ _).2 .space (Or.inr rfl)
          · rw [if_neg hw, if_neg (by simp [hq]), if_neg h2]
            exact (iht _ _).2 .word (Or.inl rfl)
        · rw [shGo]
          by_cases hw : isWs c = true
          · rw [if_pos hw]; exact (iht _ _).2 .space (Or.inr rfl)
          · rw [if_neg hw, if_neg h2, if_neg (by simp [hq])]
            exact (iht _ _).2 .word (Or.inl rfl)

theorem count_join (hs : List Str) :
    (joinQuoted hs).count '\'' % 2 = (hs.map fun l => l.count '\'').sum % 2 := by
  induction hs with
  | nil => rfl
  | cons l ls ih =>
    match ls, ih with
    | [], _ => simp [joinQuoted]
    | l' :: ls, ih =>
      rw [joinQuoted]
      simp only [List.count_append, List.map_cons, List.sum_cons] at ih ⊢
      have e : ('\'' :: ' ' :: '\'' :: joinQuoted (l' :: ls)).count '\'' = (joinQuoted (l' :: ls)).count '\'' + 2 := by
        simp
      rw [e]; omega

theorem join_safe (hs : List Str) (h : ∀ l ∈ hs, ∀ c ∈ l, c ≠ '"' ∧ c ≠ '\\') :
    ∀ c ∈ joinQuoted hs, c ≠ '"' ∧ c ≠ '\\' := by
  induction hs with
  | nil => intro c hc; simp [joinQuoted] at hc
  | cons l ls ih =>
    match ls, ih with
    | [], _ => intro c hc; exact h l List.mem_cons_self c hc
    | l' :: ls, ih =>
      intro c hc
      rw [joinQuoted, List.mem_append] at hc
      rcases hc with hc | hc
      · exact h l List.mem_cons_self c hc
      · simp only [List.mem_cons] at hc
        rcases hc with rfl | rfl | rfl | hc
        · decide
        · decide
        · decide
        · exact ih (fun x hx => h x (List.mem_cons_of_mem _ hx)) c hc

/-- **C117** for lines without double quotes and backslashes the call raises ValueError exactly when the lines hold an
odd number of single quotes. -/
theorem C117_error_iff (header : List Str) (h : ∀ l ∈ header, ∀ c ∈ l, c ≠ '"' ∧ c ≠ '\\') :
    addLinesArgv header = .error .ValueError ↔ (header.map fun l => l.count '\'').sum % 2 = 1 := by
  unfold addLinesArgv shSplit
  rw [(odd_run (addLinesText header) [] false ?_).2 .space (Or.inr rfl)]
  · have e : (addLinesText header).count '\'' = (joinQuoted header).count '\'' + 2 := by
      unfold addLinesText
      simp only [List.count_append]
      rw [show List.count '\'' "getinfo -a '".toList = 1 by decide, show List.count '\'' ['\''] = 1 by decide]
      omega
    rw [e, ← count_join header]; omega
  · intro c hc
    unfold addLinesText at hc
    rw [List.mem_append, List.mem_append] at hc
    rcases hc with (hc | hc) | hc
    · revert c; decide
    · exact join_safe header h c hc
    · revert c; decide

/-- **C117** is false: a header line with a quoted expression is cut in two lines without its quotes. -/
theorem C117_refuted : ¬ C117_statement := by
  intro h
  have := h ["pcomb -e 'ro = 1'".toList]
  revert this
  decide +kernel

example : addLinesArgv ["pcomb -e 'ro = 1'".toList, "SOFT=x".toList] =
    .ok ["getinfo".toList, "-a".toList, "pcomb -e ro".toList, "=".toList, "1".toList, "SOFT=x".toList] := by decide +kernel

example : addLinesArgv ["Jo's room".toList] = .error .ValueError := by decide +kernel

example : addLinesArgv ["VIEW= -vta -vh 180".toList, "a \"b\" \\c".toList] =
    .ok ["getinfo".toList, "-a".toList, "VIEW= -vta -vh 180".toList, "a \"b\" \\c".toList] :=
  C117_lines_partial _ (by simp) (by decide)

/-! ## C118 -/

/-- **C118**, the full claim: the tool gets its options and the path as one argument. -/
def C118_statement : Prop :=
  ∀ path : Str, path ≠ [] →
    fileArgv getinfoCmd path = .ok ["getinfo".toList, path] ∧
    fileArgv greyCmd path = .ok ["pvalue".toList, "-b".toList, "-h".toList, "-df".toList, "-o".toList, path] ∧
    fileArgv colorCmd path = .ok ["pvalue".toList, "-n".toList, "-h".toList, "-df".toList, "-o".toList, path]

theorem plain_end (t : Str) (hne : t ≠ []) (h : ∀ c ∈ t, plain c = true) : shGo .space [] false t = .ok [t] := by
  have := space_run t [] [] false hne h
  rw [List.append_nil] at this
  rw [this, shGo, if_pos (Or.inl hne)]

theorem plain_step (t rest : Str) (hne : t ≠ []) (h : ∀ c ∈ t, plain c = true) :
    shGo .space [] false (t ++ ' ' :: rest) = (shGo .space [] false rest).map (t :: ·) := by
  rw [space_run t _ _ _ hne h, word_space _ _ _ (Or.inl hne)]

/-- **C118** holds for every path without white space, quotes and backslashes. -/
theorem C118_plain_partial (path : Str) (hne : path ≠ []) (h : ∀ c ∈ path, plain c = true) :
    fileArgv getinfoCmd path = .ok ["getinfo".toList, path] ∧
    fileArgv greyCmd path = .ok ["pvalue".toList, "-b".toList, "-h".toList, "-df".toList, "-o".toList, path] ∧
    fileArgv colorCmd path = .ok ["pvalue".toList, "-n".toList, "-h".toList, "-df".toList, "-o".toList, path] := by
  have five : ∀ o : Str, o ≠ [] → (∀ c ∈ o, plain c = true) →
      shGo .space [] false ("pvalue".toList ++ ' ' :: (o ++ ' ' :: ("-h".toList ++ ' ' :: ("-df".toList ++ ' ' ::
        ("-o".toList ++ ' ' :: path))))) = .ok ["pvalue".toList, o, "-h".toList, "-df".toList, "-o".toList, path] := by
    intro o ho hp
    rw [plain_step _ _ (by decide) (by decide), plain_step _ _ ho hp, plain_step _ _ (by decide) (by decide),
      plain_step _ _ (by decide) (by decide), plain_step _ _ (by decide) (by decide), plain_end path hne h]
    rfl
  unfold fileArgv shSplit
  refine ⟨?_, ?_, ?_⟩
  · unfold getinfoCmd
    rw [plain_step _ _ (by decide) (by decide), plain_end path hne h]; rfl
  · rw [← five "-b".toList (by decide) (by decide)]; rfl
  · rw [← five "-n".toList (by decide) (by decide)]; rfl

/-- **C118** the empty path (standard input) adds no argument. -/
theorem C118_stdin :
    fileArgv greyCmd [] = .ok ["pvalue".toList, "-b".toList, "-h".toList, "-df".toList, "-o".toList] ∧
    fileArgv colorCmd [] = .ok ["pvalue".toList, "-n".toList, "-h".toList, "-df".toList, "-o".toList] ∧
    fileArgv getinfoCmd [] = .ok ["getinfo".toList] := by decide +kernel

/-- **C118** a path with a blank between plain parts is given as two arguments, for every such path. -/
theorem C118_blank (a b : Str) (ha : a ≠ []) (hb : b ≠ []) (pa : ∀ c ∈ a, plain c = true) (pb : ∀ c ∈ b, plain c = true) :
    fileArgv getinfoCmd (a ++ ' ' :: b) = .ok ["getinfo".toList, a, b] := by
  unfold fileArgv shSplit getinfoCmd
  rw [plain_step _ _ (by decide) (by decide), plain_step _ _ ha pa, plain_end b hb pb]; rfl

/-- **C118** is false: a path with a blank. -/
theorem C118_refuted : ¬ C118_statement := by
  intro h
  have := (h "my image.hdr".toList (by decide)).1
  revert this
  decide +kernel

example : ∀ c ∈ "dir/sub_dir/img-01.hdr".toList, plain c = true := by decide

example : fileArgv colorCmd "Jo's.hdr".toList = .error .ValueError := by decide +kernel

end Verif.Shell
