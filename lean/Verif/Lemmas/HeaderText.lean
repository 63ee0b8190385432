import Verif.Props.Header
import Verif.Model.Convert
import Mathlib.Data.List.TakeWhile
/-! How the header text printed by `getinfo` splits into lines. -/
namespace Verif.Conv
open Verif.Py Verif.Header

theorem has_iff (pat s : Str) : has pat s = true ↔ pat <:+: s := by
  unfold has
  induction s with
  | nil =>
    rw [afterLast, List.infix_nil]
    split_ifs with h
    · simpa using h
    · simpa using h
  | cons c s ih =>
    rw [List.infix_cons_iff, ← ih, afterLast]
    cases hx : afterLast pat s with
    | some t => simp
    | none =>
      simp only [Option.isSome_none, Bool.false_eq_true, or_false]
      rw [← List.isPrefixOf_iff_prefix]
      split_ifs with h
      · simp [h]
      · simp [h]

/-- a pattern is not found across a foreign character at the end -/
theorem has_snoc (pat s : Str) (c : Char) (hne : pat ≠ []) (hc : c ∉ pat) : has pat (s ++ [c]) = has pat s := by
  rw [Bool.eq_iff_iff, has_iff, has_iff]
  constructor
  · rintro ⟨a, b, h⟩
    rcases List.eq_nil_or_concat b with rfl | ⟨b', x, rfl⟩
    · rw [List.append_nil] at h
      exfalso
      rcases List.eq_nil_or_concat pat with rfl | ⟨p', x, rfl⟩
      · exact hne rfl
      · rw [List.concat_eq_append, ← List.append_assoc] at h
        have := List.append_inj_right' h rfl
        rw [List.singleton_inj] at this
        apply hc; rw [← this]; simp
    · rw [List.concat_eq_append, ← List.append_assoc] at h
      exact ⟨a, b', List.append_inj_left' h rfl⟩
  · rintro ⟨a, b, rfl⟩
    exact ⟨a, b ++ [c], by simp⟩

/-! ### stripping -/

theorem rstrip_snoc (s : Str) (c : Char) (hc : isSpace c = true) : rstrip (s ++ [c]) = rstrip s := by
  unfold rstrip
  rw [List.reverse_append, List.reverse_singleton, List.singleton_append, List.dropWhile_cons, if_pos hc]

theorem rstrip_snoc_ne (s : Str) (c : Char) (hc : isSpace c = false) : rstrip (s ++ [c]) = s ++ [c] := by
  unfold rstrip
  rw [List.reverse_append, List.reverse_singleton, List.singleton_append, List.dropWhile_cons, if_neg (by simp [hc])]
  simp

theorem lstrip_snoc (s : Str) (c : Char) (hc : isSpace c = true) :
    lstrip (s ++ [c]) = lstrip s ∨ lstrip (s ++ [c]) = lstrip s ++ [c] := by
  unfold lstrip
  induction s with
  | nil => left; simp [hc]
  | cons a s ih =>
    rw [List.cons_append, List.dropWhile_cons, List.dropWhile_cons]
    split_ifs with h
    · exact ih
    · right; rfl

theorem strip_snoc (s : Str) (c : Char) (hc : isSpace c = true) : strip (s ++ [c]) = strip s := by
  unfold strip
  rcases lstrip_snoc s c hc with h | h
  · rw [h]
  · rw [h, rstrip_snoc _ _ hc]

theorem strip_cons (s : Str) (c : Char) (hc : isSpace c = true) : strip (c :: s) = strip s := by
  unfold strip lstrip
  rw [List.dropWhile_cons, if_pos hc]

/-- a text that starts and ends with a visible character is not stripped -/
theorem strip_id (a b : Char) (s : Str) (ha : isSpace a = false) (hb : isSpace b = false) :
    strip (a :: s ++ [b]) = a :: s ++ [b] := by
  unfold strip
  have : lstrip (a :: s ++ [b]) = a :: s ++ [b] := by
    unfold lstrip
    rw [List.cons_append, List.dropWhile_cons, if_neg (by simp [ha])]
  rw [this, rstrip_snoc_ne _ _ hb]

theorem lstrip_stop (s t : Str) (c : Char) (hc : isSpace c = false) : ∃ s', lstrip (s ++ c :: t) = s' ++ c :: t ∧ s' <:+ s := by
  induction s with
  | nil =>
    refine ⟨[], ?_, List.suffix_refl _⟩
    unfold lstrip
    rw [List.nil_append, List.dropWhile_cons, if_neg (by simp [hc])]
  | cons a s ih =>
    obtain ⟨s', h, hs⟩ := ih
    by_cases ha : isSpace a = true
    · refine ⟨s', ?_, hs.trans (List.suffix_cons _ _)⟩
      rw [← h]; unfold lstrip
      rw [List.cons_append, List.dropWhile_cons, if_pos ha]
    · refine ⟨a :: s, ?_, List.suffix_refl _⟩
      unfold lstrip
      rw [List.cons_append, List.dropWhile_cons, if_neg ha]

theorem rstrip_spaces (s : Str) : ∃ t, s = rstrip s ++ t ∧ ∀ c ∈ t, isSpace c = true := by
  refine ⟨(s.reverse.takeWhile isSpace).reverse, ?_, ?_⟩
  · unfold rstrip
    rw [← List.reverse_append, List.takeWhile_append_dropWhile, List.reverse_reverse]
  · intro c hc
    rw [List.mem_reverse] at hc
    exact List.mem_takeWhile_imp hc

/-! ### what depends on the lines only up to white space at their end -/

/-- a reading of lines that ignores white space at the end -/
structure Blind {β : Type} (f : Str → Option β) : Prop where
  nil : f [] = none
  snoc : ∀ l c, isSpace c = true → f (l ++ [c]) = f l

theorem go_snoc {β : Type} {f : Str → Option β} (hf : Blind f) (s cur : Str) (c : Char) (hc : isSpace c = true) :
    (splitlinesGo cur (s ++ [c])).filterMap f = (splitlinesGo cur s).filterMap f := by
  induction hn : s.length using Nat.strong_induction_on generalizing s cur with
  | _ n ih =>
    have ecur : (splitlinesGo cur []).filterMap f = [cur.reverse].filterMap f := by
      rw [splitlinesGo.eq_1]
      split_ifs with h
      · have : cur = [] := by simpa using h
        subst this; simp [hf.nil]
      · rfl
    match s with
    | [] =>
      rw [ecur, List.nil_append, splitlinesGo.eq_3]
      · split_ifs with hb
        · rw [splitlinesGo.eq_1]; rfl
        · rw [splitlinesGo.eq_1]
          simp only [List.isEmpty_cons, Bool.false_eq_true, if_false, List.reverse_cons, List.filterMap_cons,
            List.filterMap_nil, hf.snoc _ _ hc]
      · intro cs' _ h; cases h
    | '\r' :: '\n' :: s' =>
      show (splitlinesGo cur ('\r' :: '\n' :: (s' ++ [c]))).filterMap f = _
      rw [splitlinesGo.eq_2, splitlinesGo.eq_2, List.filterMap_cons, List.filterMap_cons,
        ih s'.length (by rw [← hn]; simp) s' [] rfl]
    | a :: s' =>
      by_cases h1 : a = '\r' ∧ ∃ s'', s' ++ [c] = '\n' :: s''
      · obtain ⟨rfl, s'', hs⟩ := h1
        match s' with
        | [] =>
          rw [List.nil_append] at hs
          injection hs with hs _
          subst hs
          show (splitlinesGo cur ['\r', '\n']).filterMap f = _
          rw [splitlinesGo.eq_2, splitlinesGo.eq_3]
          · rw [if_pos (by decide)]
          · intro cs' _ h; cases h
        | b :: s3 =>
          rw [List.cons_append] at hs
          injection hs with hb _
          subst hb
          show (splitlinesGo cur ('\r' :: '\n' :: (s3 ++ [c]))).filterMap f = _
          rw [splitlinesGo.eq_2, splitlinesGo.eq_2, List.filterMap_cons, List.filterMap_cons,
            ih s3.length (by rw [← hn]; simp) s3 [] rfl]
      · rw [List.cons_append, splitlinesGo.eq_3, splitlinesGo.eq_3]
        · split_ifs
          · rw [List.filterMap_cons, List.filterMap_cons, ih s'.length (by rw [← hn]; simp) s' [] rfl]
          · exact ih s'.length (by rw [← hn]; simp) s' _ rfl
        · intro cs' ha hs
          exact h1 ⟨ha, cs' ++ [c], by rw [hs]; rfl⟩
        · intro cs' ha hs
          exact h1 ⟨ha, cs', hs⟩

theorem blind_rstrip {β : Type} {f : Str → Option β} (hf : Blind f) (s : Str) :
    (splitlines (rstrip s)).filterMap f = (splitlines s).filterMap f := by
  obtain ⟨t, ht, hsp⟩ := rstrip_spaces s
  conv_rhs => rw [ht]
  generalize rstrip s = r
  clear ht
  induction t using List.reverseRecOn with
  | nil => rw [List.append_nil]
  | append_singleton t c ih =>
    rw [ih (fun x hx => hsp x (by simp [hx])), ← List.append_assoc]
    exact (go_snoc hf (r ++ t) [] c (hsp c (by simp))).symm

/-- `"\n".join` and `unlines` read the same -/
theorem blind_join {β : Type} {f : Str → Option β} (hf : Blind f) (ls : List Str) (h : ∀ l ∈ ls, NB l) :
    (splitlines (joinWith '\n' ls)).filterMap f = ls.filterMap f := by
  cases hls : ls with
  | nil => rfl
  | cons a l =>
    have : unlines ls = joinWith '\n' ls ++ ['\n'] := by
      rw [hls]
      clear hls h
      induction l generalizing a with
      | nil => simp [unlines, joinWith]
      | cons b l ih => 
        have := ih b
        unfold unlines at this ⊢
        rw [List.map_cons, List.flatten_cons, this]
        simp [joinWith]
    rw [← hls]
    conv_rhs => rw [← splitlines_unlines ls h, this]
    exact (go_snoc hf _ [] '\n' (by decide)).symm

/-! ### `getinfo` -/

theorem getinfoText_eq (path : Str) (lines : List Str) :
    getinfoText path lines = unlines ((path ++ [':']) :: lines.map ('\t' :: ·)) ++ ['\t'] := by
  unfold getinfoText unlines
  have : ∀ ls : List Str, '\t' :: ls.flatMap (· ++ "\n\t".toList) = ((ls.map ('\t' :: ·)).map (· ++ ['\n'])).flatten ++ ['\t'] := by
    intro ls
    induction ls with
    | nil => rfl
    | cons l ls ih =>
      simp only [List.flatMap_cons, List.map_cons, List.flatten_cons, List.append_assoc, List.cons_append] at ih ⊢
      rw [← ih]
      simp
  rw [List.map_cons, List.flatten_cons, List.append_assoc (path ++ [':'] ++ ['\n']), ← this]
  simp

/-- the lines read from the text of `getinfo`, up to white space at their ends -/
theorem headerLines_blind {β : Type} {f : Str → Option β} (hf : Blind f) (htab : ∀ l, f ('\t' :: l) = f l)
    (path : Str) (lines : List Str) (hp : NB path) (hl : ∀ l ∈ lines, NB l) (hcol : ∀ s, f (s ++ [':']) = none) :
    (headerLines (getinfoText path lines)).filterMap f =
      (lines.filter fun l => !has "RADIANCE".toList l).filterMap f := by
  have rad : ∀ l c, isSpace c = true → has "RADIANCE".toList (l ++ [c]) = has "RADIANCE".toList l := by
    intro l c hc
    refine has_snoc _ _ _ (by decide) ?_
    have : ∀ x ∈ "RADIANCE".toList, isSpace x = false := by decide
    intro hm
    rw [this c hm] at hc; cases hc
  have hg : Blind (fun l => if has "RADIANCE".toList l then none else f l) :=
    ⟨by rw [if_neg (by decide)]; exact hf.nil, fun l c hc => by simp only [rad l c hc, hf.snoc l c hc]⟩
  have e1 : ∀ ls : List Str, (ls.filter fun l => !has "RADIANCE".toList l).filterMap f =
      ls.filterMap (fun l => if has "RADIANCE".toList l then none else f l) := by
    intro ls
    rw [List.filterMap_filter]
    congr 1
    funext l
    cases has "RADIANCE".toList l <;> simp
  unfold headerLines
  rw [e1, e1]
  obtain ⟨p', hp', hsuf⟩ := lstrip_stop path ('\n' :: (unlines (lines.map ('\t' :: ·)) ++ ['\t'])) ':' (by decide)
  have htext : lstrip (getinfoText path lines) = unlines ((p' ++ [':']) :: lines.map ('\t' :: ·)) ++ ['\t'] := by
    rw [getinfoText_eq]
    have : ∀ q : Str, unlines ((q ++ [':']) :: lines.map ('\t' :: ·)) ++ ['\t'] =
        q ++ ':' :: '\n' :: (unlines (lines.map ('\t' :: ·)) ++ ['\t']) := by
      intro q; simp [unlines]
    rw [this, this, hp']
  unfold strip
  rw [blind_rstrip hg, htext]
  have := go_snoc hg (unlines ((p' ++ [':']) :: lines.map ('\t' :: ·))) [] '\t' (by decide)
  unfold splitlines
  rw [this]
  change (splitlines _).filterMap _ = _
  rw [splitlines_unlines]
  · rw [List.filterMap_cons]
    have h0 : (if has "RADIANCE".toList (p' ++ [':']) = true then none else f (p' ++ [':'])) = none := by
      split_ifs
      · rfl
      · exact hcol p'
    rw [h0]
    simp only
    rw [List.filterMap_map]
    congr 1
    funext l
    have : has "RADIANCE".toList ('\t' :: l) = has "RADIANCE".toList l := by
      rw [Bool.eq_iff_iff, has_iff, has_iff, List.infix_cons_iff]
      constructor
      · rintro (h | h)
        · exact absurd (List.isPrefixOf_iff_prefix.mpr h) (by
            rw [show "RADIANCE".toList = 'R' :: "ADIANCE".toList by decide, List.isPrefixOf]
            simp)
        · exact h
      · exact Or.inr
    simp only [Function.comp, this, htab]
  · intro l hl'
    rcases List.mem_cons.mp hl' with rfl | hl'
    · exact NB.append (NB.of_subset hp hsuf.subset) (by intro c hc; rw [List.mem_singleton] at hc; rw [hc]; decide)
    · obtain ⟨l', hm, rfl⟩ := List.mem_map.mp hl'
      exact NB.append (a := ['\t']) (by intro c hc; rw [List.mem_singleton] at hc; rw [hc]; decide) (hl l' hm)

/-! ### view lines -/

theorem viewValue_congr {a b : Str} (h : strip a = strip b) : Spec.viewValue a = Spec.viewValue b := by
  unfold Spec.viewValue cleanLine; rw [h]

theorem viewValue_blind : Blind Spec.viewValue where
  nil := by decide +kernel
  snoc l c hc := viewValue_congr (strip_snoc l c hc)

theorem subRun_id (s : Str) (h : '_' ∉ s) : subRun s = s := by
  unfold subRun
  have : has "clasp_tmp".toList s = false := by
    rw [Bool.eq_false_iff]
    intro hh
    exact h (((has_iff _ _).mp hh).subset (by decide))
  unfold has at this
  rw [Option.isSome_eq_false_iff, Option.isNone_iff_eq_none] at this
  rw [this]

theorem subClasp_id (s cur : Str) (h : '_' ∉ s) (hc : '_' ∉ cur) : subClaspGo cur s = cur.reverse ++ s := by
  induction s generalizing cur with
  | nil => rw [subClaspGo, subRun_id _ (by simpa using hc), List.append_nil]
  | cons a s ih =>
    have hs : '_' ∉ s := fun e => h (List.mem_cons_of_mem _ e)
    have ha : a ≠ '_' := fun e => h (by rw [e]; simp)
    rw [subClaspGo]
    split_ifs
    · rw [subRun_id _ (by simpa using hc), ih [] hs (by simp)]; simp
    · rw [ih (a :: cur) hs (by simp [hc, ha.symm])]; simp

/-- the title line of a picture is no view -/
theorem viewValue_title (s : Str) : Spec.viewValue (s ++ [':']) = none := by
  unfold Spec.viewValue
  rw [if_neg]
  rintro ⟨h1, h2⟩
  -- the cleaned line ends with a colon
  have key : ∀ (t cur : Str), ∃ u, subClaspGo cur (t ++ [':']) = u ++ [':'] := by
    intro t
    induction t with
    | nil =>
      intro cur
      rw [List.nil_append, subClaspGo, if_neg (by decide), subClaspGo]
      unfold subRun
      cases hx : afterLast "clasp_tmp".toList (':' :: cur).reverse with
      | none => exact ⟨cur.reverse, by simp⟩
      | some r =>
        -- the text behind the last occurrence ends with the colon
        have hend : ∀ (y r : Str), afterLast "clasp_tmp".toList (y ++ [':']) = some r → ∃ r', r = r' ++ [':'] := by
          intro y
          induction y with
          | nil =>
            intro r hr
            have : afterLast "clasp_tmp".toList ([] ++ [':']) = none := by decide
            rw [this] at hr; cases hr
          | cons a y ih =>
            intro r hr
            rw [List.cons_append, afterLast] at hr
            cases hy : afterLast "clasp_tmp".toList (y ++ [':']) with
            | some r2 =>
              rw [hy] at hr
              injection hr with hr
              subst hr
              exact ih _ hy
            | none =>
              rw [hy] at hr
              simp only at hr
              split_ifs at hr with hp
              injection hr with hr
              have hpre := List.isPrefixOf_iff_prefix.mp hp
              obtain ⟨z, hz⟩ := hpre
              have hr2 : r = z := by rw [← hr, ← hz]; rfl
              rcases List.eq_nil_or_concat z with hz0 | ⟨z', x, hz1⟩
              · exfalso
                rw [hz0, List.append_nil, ← List.cons_append] at hz
                have h2 := congrArg List.getLast? hz
                rw [List.getLast?_concat] at h2
                revert h2
                decide
              · rw [hz1, List.concat_eq_append, ← List.append_assoc, ← List.cons_append] at hz
                have := List.append_inj_right' hz rfl
                rw [hr2, hz1, List.concat_eq_append, this]
                exact ⟨z', rfl⟩
        rw [List.reverse_cons] at hx
        obtain ⟨r', rfl⟩ := hend _ _ hx
        refine ⟨"<stdin>".toList ++ r'.dropWhile (· ≠ ':'), ?_⟩
        show "<stdin>".toList ++ (r' ++ [':']).dropWhile (· ≠ ':') = _
        rw [List.append_assoc]
        congr 1
        clear hx
        induction r' with
        | nil => rfl
        | cons b r' ih =>
          rw [List.cons_append, List.dropWhile_cons, List.dropWhile_cons]
          split_ifs
          · exact ih
          · rfl
    | cons a t ih =>
      intro cur
      rw [List.cons_append, subClaspGo]
      split_ifs
      · obtain ⟨u, hu⟩ := ih []
        exact ⟨subRun cur.reverse ++ a :: u, by rw [hu]; simp⟩
      · exact ih _
  obtain ⟨s', hs', -⟩ := lstrip_stop s [] ':' (by decide)
  have hst : strip (s ++ [':']) = s' ++ [':'] := by
    unfold strip; rw [hs', rstrip_snoc_ne _ _ (by decide)]
  obtain ⟨u, hu⟩ := key s' []
  have hcl : cleanLine (s ++ [':']) = u ++ [':'] := by unfold cleanLine; rw [hst, hu]
  rw [hcl] at h1 h2
  unfold isSectionText at h1
  by_cases hlen : 2 ≤ (u ++ [':']).length
  · simp [hlen] at h1
    have : u = [] := by simpa using h1
    subst this
    simp at hlen
  · have : u = [] := by
      cases u with
      | nil => rfl
      | cons a u => simp at hlen
    subst this
    revert h2
    decide

/-- the last view in what `hdr_header` returns -/
theorem lastView_headerLines (path : Str) (lines : List Str) (hp : NB path) (hl : ∀ l ∈ lines, NB l) :
    Spec.lastView (headerLines (getinfoText path lines)) =
      Spec.lastView (lines.filter fun l => !has "RADIANCE".toList l) := by
  unfold Spec.lastView
  rw [headerLines_blind viewValue_blind (fun l => viewValue_congr (strip_cons l '\t' (by decide))) path lines hp hl
    viewValue_title]

theorem lastView_join (ls : List Str) (h : ∀ l ∈ ls, NB l) :
    Spec.lastView (splitlines (joinWith '\n' ls)) = Spec.lastView ls := by
  unfold Spec.lastView; rw [blind_join viewValue_blind ls h]

theorem lastView_snoc (ls : List Str) (l : Str) : Spec.lastView (ls ++ [l]) =
    match Spec.viewValue l with
    | none => Spec.lastView ls
    | some v => some v := by
  unfold Spec.lastView
  rw [List.filterMap_append]
  cases h : Spec.viewValue l with
  | none => simp [h]
  | some v => simp [h]

end Verif.Conv
