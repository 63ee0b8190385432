import Verif.Lemmas.Textwrap
/-! # Wrapped text that can be joined again: where breaks are at white space -/
namespace Verif.Textwrap
open Verif.Py Verif.Header

/-! ## words -/

theorem tokens_def (s : Str) : tokens s = tokens.go [] s := rfl

theorem go_append_space (cur a b : Str) (c : Char) (hc : isSpace c = true) :
    tokens.go cur (a ++ c :: b) = tokens.go cur a ++ tokens.go [] b := by
  induction a generalizing cur with
  | nil =>
    rw [List.nil_append, tokens.go, tokens.go, if_pos hc]
    split_ifs <;> simp
  | cons x a ih =>
    rw [List.cons_append, tokens.go, tokens.go]
    split_ifs
    · exact ih []
    · rw [ih []]; rfl
    · exact ih _

theorem tokens_space_mid (a b : Str) (c : Char) (hc : isSpace c = true) : tokens (a ++ c :: b) = tokens a ++ tokens b :=
  go_append_space [] a b c hc

theorem tokens_cons_space (b : Str) (c : Char) (hc : isSpace c = true) : tokens (c :: b) = tokens b := by
  rw [tokens_def, tokens.go, if_pos hc]
  rfl

theorem tokens_snoc_space (a : Str) (c : Char) (hc : isSpace c = true) : tokens (a ++ [c]) = tokens a := by
  have := tokens_space_mid a [] c hc
  rw [this]
  simp [tokens, tokens.go]

theorem tokens_lstrip (s : Str) : tokens (lstrip s) = tokens s := by
  induction s with
  | nil => rfl
  | cons c s ih =>
    unfold lstrip at ih ⊢
    rw [List.dropWhile_cons]
    split_ifs with h
    · rw [ih, tokens_cons_space s c h]
    · rfl

theorem tokens_rstrip (s : Str) : tokens (rstrip s) = tokens s := by
  induction s using List.reverseRecOn with
  | nil => rfl
  | append_singleton s c ih =>
    unfold rstrip at ih ⊢
    rw [List.reverse_append, List.reverse_singleton, List.singleton_append, List.dropWhile_cons]
    split_ifs with h
    · rw [ih, tokens_snoc_space s c h]
    · simp

theorem tokens_strip (s : Str) : tokens (strip s) = tokens s := by
  unfold strip
  rw [tokens_rstrip, tokens_lstrip]

/-- some word ends like the text does -/
theorem go_last (s cur : Str) (c : Char) (hc : isSpace c = false) : ∃ x ∈ tokens.go cur (s ++ [c]), x.getLast? = some c := by
  induction s generalizing cur with
  | nil =>
    refine ⟨(c :: cur).reverse, ?_, by simp⟩
    simp [tokens.go, hc]
  | cons a s ih =>
    rw [List.cons_append, tokens.go]
    split_ifs
    · exact ih []
    · obtain ⟨x, h1, h2⟩ := ih []
      exact ⟨x, by simp [h1], h2⟩
    · exact ih _

theorem last_token (s : Str) (h : rstrip s ≠ []) : ∃ x ∈ tokens s, x.getLast? = (rstrip s).getLast? := by
  rw [← tokens_rstrip s]
  rcases List.eq_nil_or_concat (rstrip s) with h0 | ⟨t, c, h0⟩
  · exact absurd h0 h
  · rw [List.concat_eq_append] at h0
    have hc : isSpace c = false := by
      have h1 : (s.reverse.dropWhile isSpace) = c :: t.reverse := by
        unfold rstrip at h0
        have := congrArg List.reverse h0
        simpa using this
      have h2 := List.head_dropWhile_not isSpace (l := s.reverse) (by rw [h1]; simp)
      simpa [h1] using h2
    obtain ⟨x, h1, h2⟩ := go_last t [] c hc
    rw [h0]
    exact ⟨x, h1, by rw [h2]; simp⟩

/-! ## chunks separated by white space -/

theorem isWs_isSpace (c : Char) (h : isWs c = true) : isSpace c = true := by
  unfold isWs at h
  unfold isSpace
  simp only [Bool.or_eq_true, Bool.and_eq_true, decide_eq_true_eq, beq_iff_eq] at h ⊢
  omega

/-- there is white space where the texts meet -/
def SepAt (a b : Str) : Prop := (∃ a' c, a = a' ++ [c] ∧ isWs c = true) ∨ ∃ c b', b = c :: b' ∧ isWs c = true

theorem SepAt.tokens {a b : Str} (h : SepAt a b) : tokens (a ++ b) = tokens a ++ tokens b := by
  rcases h with ⟨a', c, rfl, hc⟩ | ⟨c, b', rfl, hc⟩
  · have := isWs_isSpace c hc
    rw [List.append_assoc, List.singleton_append, tokens_space_mid _ _ _ this, tokens_snoc_space _ _ this]
  · have := isWs_isSpace c hc
    rw [tokens_space_mid _ _ _ this, tokens_cons_space _ _ this]

/-- white space between all neighbours -/
def Sep : List Str → Prop
  | [] => True
  | [_] => True
  | a :: b :: l => SepAt a b ∧ Sep (b :: l)

theorem Sep.tail {a : Str} {l : List Str} (h : Sep (a :: l)) : Sep l := by
  cases l with
  | nil => trivial
  | cons b l => exact h.2

theorem Sep.append {l m : List Str} (h : Sep (l ++ m)) : Sep l ∧ Sep m := by
  induction l with
  | nil => exact ⟨trivial, h⟩
  | cons a l ih =>
    cases l with
    | nil => exact ⟨trivial, h.tail⟩
    | cons b l => exact ⟨⟨h.1, (ih h.2).1⟩, (ih h.2).2⟩

theorem SepAt.flatten {a b : Str} (l : List Str) (h : SepAt a b) (hb : b ≠ []) : SepAt a (b :: l).flatten := by
  rcases h with h | ⟨c, b', rfl, hc⟩
  · exact Or.inl h
  · exact Or.inr ⟨c, b' ++ l.flatten, by simp, hc⟩

theorem Sep.tokens {l : List Str} (h : Sep l) (hne : ∀ c ∈ l, c ≠ []) : tokens l.flatten = (l.map tokens).flatten := by
  induction l with
  | nil => rfl
  | cons a l ih =>
    cases l with
    | nil => simp
    | cons b l =>
      rw [List.flatten_cons, (SepAt.flatten l h.1 (hne b (by simp))).tokens, ih h.2 fun c hc => hne c (by simp [hc])]
      simp

/-- no hyphen is a place to break -/
def unbroken (k : Cls) : Str → Str → Bool
  | _, [] => true
  | prev, c :: s => !hyphenBreak k prev (c :: s) && !emDash k prev (c :: s) && unbroken k (c :: prev) s

/-- Text whose hyphens all begin a word (options such as `-vta`) is not broken at hyphens. -/
theorem unbroken_options (k : Cls) (hk : ∀ c, isWs c = true → k.word c = false) (s : Str)
    (h : ∀ a b, s = a ++ '-' :: b → a = [] ∨ ∃ a', a = a' ++ [' '] ∨ a = a' ++ ['\t']) : unbroken k [] s = true := by
  have hp : ∀ c, isWs c = true → k.punct c = false := by
    intro c hc
    unfold Cls.punct
    rw [hk c hc, Bool.false_or]
    cases hm : "!\"'&.,?".toList.contains c with
    | false => rfl
    | true =>
      exfalso
      rw [List.contains_iff_mem] at hm
      have : c ∈ ['!', '"', '\'', '&', '.', ',', '?'] := hm
      simp only [List.mem_cons, List.not_mem_nil, or_false] at this
      rcases this with rfl | rfl | rfl | rfl | rfl | rfl | rfl <;> simp [isWs] at hc
  have key : ∀ (s prev : Str), (∀ a b, s = a ++ '-' :: b → ∀ c ∈ (a.reverse ++ prev).head?, isWs c = true) → unbroken k prev s = true := by
    intro s
    induction s with
    | nil => intro prev _; rfl
    | cons c s ih =>
      intro prev h
      simp only [unbroken, Bool.and_eq_true, Bool.not_eq_true']
      have hprev : c = '-' → ∀ x ∈ prev.head?, isWs x = true := by
        rintro rfl
        simpa using h [] s rfl
      refine ⟨⟨?_, ?_⟩, ih _ fun a b hab => ?_⟩
      · by_cases hc : c = '-'
        · subst hc
          have hb : hyphenBehind k prev = false := by
            cases prev with
            | nil => rfl
            | cons x p =>
              have hx := hk x (hprev rfl x rfl)
              unfold hyphenBehind
              split
              · rename_i heq; cases heq; simp [Cls.letter, hx]
              · rename_i heq; cases heq; simp [Cls.letter, hx]
              · rfl
          simp [hyphenBreak, hb]
        · unfold hyphenBreak
          split
          · rename_i heq; cases heq; exact absurd rfl hc
          · rfl
      · unfold emDash
        by_cases hc : c = '-'
        · have : prev.head?.any k.punct = false := by
            cases prev with
            | nil => rfl
            | cons x p => simpa using hp x (hprev hc x rfl)
          simp [this]
        · simp [List.takeWhile_cons, hc]
      · have := h (c :: a) b (by simp [hab])
        simpa using this
  refine key s [] fun a b hab c hc => ?_
  rw [List.append_nil] at hc
  rcases h a b hab with rfl | ⟨a', rfl | rfl⟩
  · simp at hc
  · simp at hc; subst hc; decide
  · simp at hc; subst hc; decide

theorem wordLen_unbroken (k : Cls) (prev s : Str) (h : unbroken k prev s = true) :
    wordLen k prev s = (s.takeWhile fun c => !isWs c).length := by
  induction s generalizing prev with
  | nil => rfl
  | cons c s ih =>
    simp only [unbroken, Bool.and_eq_true, Bool.not_eq_true'] at h
    simp only [wordLen, h.1.1, h.1.2, Bool.or_false, Bool.false_eq_true, if_false, List.takeWhile_cons]
    cases hc : isWs c
    · simp [ih _ h.2]
    · simp

theorem unbroken_drop (k : Cls) (prev s : Str) (n : Nat) (h : unbroken k prev s = true) :
    unbroken k ((s.take n).reverse ++ prev) (s.drop n) = true := by
  induction n generalizing prev s with
  | zero => simpa using h
  | succ n ih =>
    cases s with
    | nil => rfl
    | cons c s =>
      simp only [unbroken, Bool.and_eq_true] at h
      have := ih (c :: prev) s h.2
      simpa using this

/-- the chunks of such a text are its runs of white space and of other characters -/
theorem chunkLen_unbroken (k : Cls) (prev : Str) (c : Char) (s : Str) (h : unbroken k prev (c :: s) = true) :
    chunkLen k prev (c :: s) = ((c :: s).takeWhile fun x => isWs x == isWs c).length := by
  simp only [unbroken, Bool.and_eq_true, Bool.not_eq_true'] at h
  unfold chunkLen
  cases hc : isWs c
  · simp only [Bool.false_eq_true, if_false, h.1.2, List.takeWhile_cons, hc, beq_self_eq_true, if_true, List.length_cons]
    rw [wordLen_unbroken k _ _ h.2]
    simp
  · simp only [hc, if_true]
    simp

theorem take_takeWhile_length {α : Type} (p : α → Bool) (l : List α) :
    l.take (l.takeWhile p).length = l.takeWhile p ∧ l.drop (l.takeWhile p).length = l.dropWhile p := by
  induction l with
  | nil => simp
  | cons a l ih =>
    rw [List.takeWhile_cons, List.dropWhile_cons]
    split_ifs
    · simp [ih]
    · simp

theorem sep_run (c : Char) (s : Str) (h : (c :: s).dropWhile (fun x => isWs x == isWs c) ≠ []) :
    ∀ b t, (c :: s).dropWhile (fun x => isWs x == isWs c) = b :: t →
      ((∃ a' d, (c :: s).takeWhile (fun x => isWs x == isWs c) = a' ++ [d] ∧ isWs d = true) ∨ isWs b = true) := by
  intro b t hb
  cases hc : isWs c
  · right
    have := List.head_dropWhile_not (fun x => isWs x == isWs c) (l := c :: s) h
    have e : ((c :: s).dropWhile fun x => isWs x == isWs c).head h = b := by simp only [hb, List.head_cons]
    rw [e, hc] at this
    simpa using this
  · left
    have hne : (c :: s).takeWhile (fun x => isWs x == true) ≠ [] := by simp [hc]
    refine ⟨_, _, (List.dropLast_append_getLast hne).symm, ?_⟩
    have := List.all_eq_true.1 (List.all_takeWhile (p := fun x => isWs x == true) (l := c :: s)) _ (List.getLast_mem hne)
    simpa using this

theorem splitGo_sep (k : Cls) (n : Nat) (prev s : Str) (hn : s.length ≤ n) (h : unbroken k prev s = true) :
    Sep (splitGo k n prev s) := by
  induction n generalizing prev s with
  | zero => trivial
  | succ n ih =>
    cases s with
    | nil => trivial
    | cons c s =>
      have hp := chunkLen_pos k prev c s
      have hl := chunkLen_unbroken k prev c s h
      have hrec := ih (((c :: s).take (chunkLen k prev (c :: s))).reverse ++ prev) ((c :: s).drop (chunkLen k prev (c :: s)))
        (by rw [List.length_drop]; simp only [List.length_cons] at hn ⊢; omega) (unbroken_drop k prev (c :: s) _ h)
      simp only [splitGo]
      obtain ⟨e1, e2⟩ := take_takeWhile_length (fun x => isWs x == isWs c) (c :: s)
      rw [← hl] at e1 e2
      generalize hm : (c :: s).drop (chunkLen k prev (c :: s)) = rest at *
      cases rest with
      | nil => cases n <;> trivial
      | cons b t =>
        cases n with
        | zero =>
          have := congrArg List.length hm
          rw [List.length_drop] at this
          simp only [List.length_cons] at this hn
          omega
        | succ n =>
          simp only [splitGo] at hrec ⊢
          refine ⟨?_, hrec⟩
          have h3 := sep_run c s (by rw [← e2]; simp) b t e2.symm
          rw [← e1] at h3
          rcases h3 with h3 | h3
          · exact Or.inl h3
          · right
            have := chunkLen_pos k (((c :: s).take (chunkLen k prev (c :: s))).reverse ++ prev) b t
            obtain ⟨m, hm⟩ := Nat.exists_eq_add_of_le' this
            rw [hm]
            exact ⟨b, t.take m, by simp, h3⟩

theorem split_sep (k : Cls) (s : Str) (h : unbroken k [] s = true) : Sep (split k s) := splitGo_sep k _ [] s le_rfl h

/-- every chunk of such a text is a piece of it that is white space or free of white space -/
theorem splitGo_runs (k : Cls) (n : Nat) (prev s : Str) (h : unbroken k prev s = true) :
    ∀ x ∈ splitGo k n prev s, x <:+: s ∧ ((∀ c ∈ x, isWs c = true) ∨ ∀ c ∈ x, isWs c = false) := by
  induction n generalizing prev s with
  | zero => intro x hx; cases hx
  | succ n ih =>
    cases s with
    | nil => intro x hx; cases hx
    | cons c s =>
      intro x hx
      simp only [splitGo] at hx
      have hl := chunkLen_unbroken k prev c s h
      obtain ⟨e1, e2⟩ := take_takeWhile_length (fun x => isWs x == isWs c) (c :: s)
      rw [← hl] at e1 e2
      rcases List.mem_cons.1 hx with rfl | hx
      · refine ⟨(List.take_prefix _ _).isInfix, ?_⟩
        rw [e1]
        have hall : ∀ d ∈ (c :: s).takeWhile (fun x => isWs x == isWs c), isWs d = isWs c := by
          intro d hd
          simpa using List.all_eq_true.1 (List.all_takeWhile (p := fun x => isWs x == isWs c) (l := c :: s)) d hd
        cases hc : isWs c
        · exact Or.inr fun d hd => by rw [hall d (by rw [hc]; exact hd), hc]
        · exact Or.inl fun d hd => by rw [hall d (by rw [hc]; exact hd), hc]
      · obtain ⟨h1, h2⟩ := ih _ _ (unbroken_drop k prev (c :: s) _ h) x hx
        exact ⟨h1.trans (List.drop_suffix _ _).isInfix, h2⟩

theorem split_runs (k : Cls) (s : Str) (h : unbroken k [] s = true) :
    ∀ x ∈ split k s, x <:+: s ∧ ((∀ c ∈ x, isWs c = true) ∨ ∀ c ∈ x, isWs c = false) := splitGo_runs k _ [] s h

/-- the first chunk of such a text -/
theorem split_head (k : Cls) (c : Char) (s : Str) (h : unbroken k [] (c :: s) = true) :
    ∃ l, split k (c :: s) = (c :: s).takeWhile (fun x => isWs x == isWs c) :: l := by
  unfold split
  rw [List.length_cons]
  simp only [splitGo]
  have hl := chunkLen_unbroken k [] c s h
  obtain ⟨e1, -⟩ := take_takeWhile_length (fun x => isWs x == isWs c) (c :: s)
  rw [hl, e1]
  exact ⟨_, rfl⟩

/-! ## pieces are groups of chunks -/

theorem fitLine_group (width : Int) (cur : Nat) (l : List Str) :
    ∃ g, l = g ++ (fitLine width cur l).2 ∧ (fitLine width cur l).1 = g.flatten := by
  induction l generalizing cur with
  | nil => exact ⟨[], rfl, rfl⟩
  | cons c l ih =>
    unfold fitLine
    split_ifs
    · obtain ⟨g, h1, h2⟩ := ih (cur + c.length)
      exact ⟨c :: g, by rw [List.cons_append, ← h1], by rw [List.flatten_cons, h2]⟩
    · exact ⟨[], rfl, rfl⟩

theorem lineStep_group (width : Int) (c : Str) (cs : List Str) (h : ∀ x ∈ c :: cs, (x.length : Int) ≤ width) :
    ∃ g, g ≠ [] ∧ c :: cs = g ++ (lineStep width (c :: cs)).2 ∧ (lineStep width (c :: cs)).1 = g.flatten := by
  obtain ⟨g, h1, h2⟩ := fitLine_group width 0 (c :: cs)
  have hs : lineStep width (c :: cs) = fitLine width 0 (c :: cs) := by
    unfold lineStep
    cases hx : (fitLine width 0 (c :: cs)).2 with
    | nil => simp only [← hx]
    | cons d ds =>
      have hd : d ∈ c :: cs := by rw [h1, hx]; simp
      simp only
      rw [if_neg (by have := h d hd; omega), ← hx]
  rw [hs]
  refine ⟨g, ?_, h1, h2⟩
  rintro rfl
  rcases fitLine_cases width c cs with ⟨-, h3⟩ | ⟨h3, -⟩
  · have := congrArg List.length h1
    simp only [List.nil_append, List.length_cons] at this
    omega
  · have := h c (by simp)
    omega

theorem wrapGo_groups (w ind n : Nat) (width : Int) (hw : (w : Int) - ind ≤ width) (l r : List Str)
    (hl : ∀ c ∈ l, (c.length : Int) ≤ (w : Int) - ind) (h : wrapGo w ind n width l = some r) :
    ∃ G : List (List Str), G.flatten = l ∧ r = G.map List.flatten ∧ ∀ g ∈ G, g ≠ [] := by
  induction n generalizing width l r with
  | zero =>
    cases l with
    | nil => cases h; exact ⟨[], rfl, rfl, by simp⟩
    | cons c cs => cases h
  | succ n ih =>
    cases l with
    | nil => cases h; exact ⟨[], rfl, rfl, by simp⟩
    | cons c cs =>
      unfold wrapGo at h
      cases hx : wrapGo w ind n ((w : Int) - ind) (lineStep width (c :: cs)).2 with
      | none => rw [hx] at h; cases h
      | some r' =>
        rw [hx] at h
        injection h with h
        obtain ⟨g, h0, h1, h2⟩ := lineStep_group width c cs fun x hx => (hl x hx).trans hw
        obtain ⟨G, h3, h4, h5⟩ := ih _ le_rfl _ _ (fun x hx => hl x (by rw [h1]; simp [hx])) hx
        refine ⟨g :: G, ?_, ?_, ?_⟩
        · rw [List.flatten_cons, h3, ← h1]
        · rw [← h, h4, h2]; rfl
        · intro x hx
          rcases List.mem_cons.1 hx with rfl | hx
          · exact h0
          · exact h5 x hx

/-! ## names of temporary files -/

theorem afterLast_none (pat s : Str) (hp : pat ≠ []) (h : ¬ pat <:+: s) : afterLast pat s = none := by
  induction s with
  | nil =>
    unfold afterLast
    rw [if_neg (by simpa using hp)]
  | cons c s ih =>
    unfold afterLast
    rw [ih fun hh => h (hh.trans (List.suffix_cons c s).isInfix)]
    simp only
    rw [if_neg]
    intro h1
    exact h (List.isPrefixOf_iff_prefix.1 h1).isInfix

theorem subClaspGo_id (cur s : Str) (h : ¬ "clasp_tmp".toList <:+: (cur.reverse ++ s)) : subClaspGo cur s = cur.reverse ++ s := by
  have hr : ∀ r : Str, ¬ "clasp_tmp".toList <:+: r → subRun r = r := by
    intro r hr
    unfold subRun
    rw [afterLast_none _ _ (by decide) hr]
  induction s generalizing cur with
  | nil =>
    rw [List.append_nil] at h ⊢
    exact hr _ h
  | cons c s ih =>
    unfold subClaspGo
    split_ifs
    · rw [hr _ fun hh => h (hh.trans (List.prefix_append _ _).isInfix), ih [] fun hh => h ?_]
      · rfl
      · rw [List.reverse_nil, List.nil_append] at hh
        exact hh.trans ⟨cur.reverse ++ [c], [], by simp⟩
    · rw [ih (c :: cur) (by simpa using h)]
      simp

theorem cleanLine_id (s : Str) (h : ¬ "clasp_tmp".toList <:+: s) : cleanLine s = strip s := by
  unfold cleanLine
  rw [subClaspGo_id [] (strip s)]
  · rfl
  · intro hh
    rw [List.reverse_nil, List.nil_append] at hh
    refine h (hh.trans ?_)
    unfold strip rstrip lstrip
    have h1 : (s.dropWhile isSpace) <:+: s := (List.dropWhile_suffix _).isInfix
    refine List.IsInfix.trans ?_ h1
    have := (List.dropWhile_suffix (l := (s.dropWhile isSpace).reverse) isSpace)
    rw [← List.reverse_prefix] at this
    rw [List.reverse_reverse] at this
    exact this.isInfix

theorem infix_across (pat a b : Str) (c : Char) (hc : c ∉ pat) (h : pat <:+: a ++ c :: b) : pat <:+: a ∨ pat <:+: b := by
  obtain ⟨x, y, hxy⟩ := h
  rw [List.append_assoc] at hxy
  rcases List.append_eq_append_iff.1 hxy with ⟨u, rfl, h2⟩ | ⟨u, h1, h2⟩
  · -- a = x ++ u, pat ++ y = u ++ c :: b
    rcases List.append_eq_append_iff.1 h2 with ⟨v, rfl, -⟩ | ⟨v, h3, h4⟩
    · left; exact ⟨x, v, by simp⟩
    · cases v with
      | nil => left; exact ⟨x, [], by simp [h3]⟩
      | cons d v =>
        injection h4 with h4 h5
        exact absurd (by rw [h3, h4]; simp) hc
  · cases u with
    | nil => 
      rw [List.nil_append] at h2
      cases pat with
      | nil => left; exact ⟨[], a, by simp⟩
      | cons d p =>
        injection h2 with h2 h3
        exact absurd (by rw [h2]; simp) hc
    | cons d u =>
      injection h2 with h2 h3
      right; exact ⟨u, y, by rw [h3, List.append_assoc]; rfl⟩

end Verif.Textwrap
