import Verif.Props.Textwrap
import Mathlib.Algebra.Order.BigOperators.Group.List
/-! # Cleaning a header that was cleaned before: C152 -/
namespace Verif.Textwrap
open Verif.Py Verif.Header Verif.Header.Forest

/-- **C152**, the full claim: a header returned by `clean_header` can be given to it again. -/
def C152_statement : Prop :=
  ∀ (k : Cls) (n m : Nat) (text : Str) (out : List Str) (r : Except PyErr (List Str)),
    cleanRun k n 150 text = some (.ok out) → cleanRun k m 150 (joinWith '\n' out) = some r → ∃ out', r = .ok out'

/-- a command of 162 characters with a word ending in a colon at column 149 -/
def noteLine : Str := "note ".toList ++ List.replicate 138 'x' ++ " file: second half".toList

/-- The claim is false: when a line without `=` is wrapped behind a colon, its first part is taken for the title of a section,
and its second part continues a line of that section, which has none. -/
theorem C152_refuted : ¬ C152_statement := by
  intro h
  have h1 : cleanRun ascii 10 150 noteLine
      = some (.ok ["note ".toList ++ List.replicate 138 'x' ++ " file:".toList ++ " ".toList, "   ...  second half".toList]) := by decide +kernel
  have h2 : cleanRun ascii 10 150 (joinWith '\n' ["note ".toList ++ List.replicate 138 'x' ++ " file:".toList ++ " ".toList,
      "   ...  second half".toList]) = some (.error .IndexError) := by decide +kernel
  obtain ⟨o, ho⟩ := h ascii 10 10 noteLine _ _ h1 h2
  cases ho

/-- the first visible character is not a dot -/
def Undotted (s : Str) : Prop := (lstrip s).head? ≠ some '.'

instance (s : Str) : Decidable (Undotted s) := by unfold Undotted; infer_instance

theorem undotted_prefix {p i : Str} (hp : p <+: i) (h : Undotted i) : Undotted p := by
  obtain ⟨t, rfl⟩ := hp
  intro hh
  apply h
  unfold lstrip at hh ⊢
  rw [List.dropWhile_append]
  cases hx : p.dropWhile isSpace with
  | nil => rw [hx] at hh; simp at hh
  | cons c s => rw [hx] at hh; simpa using hh

theorem undotted_tabs (n : Nat) (s : Str) : Undotted (List.replicate n '\t' ++ s) ↔ Undotted s := by
  have : lstrip (List.replicate n '\t' ++ s) = lstrip s := by
    induction n with
    | zero => rfl
    | succ n ih =>
      rw [List.replicate_succ, List.cons_append, ← ih]
      unfold lstrip
      rw [List.dropWhile_cons, if_pos (by decide)]
  unfold Undotted
  rw [this]

theorem subRun_dot (r : Str) (h : (subRun r).head? = some '.') : r.head? = some '.' := by
  unfold subRun at h
  cases hx : afterLast "clasp_tmp".toList r with
  | none => rw [hx] at h; exact h
  | some t =>
    rw [hx] at h
    exact absurd h (by
      have : ("<stdin>".toList ++ t.dropWhile (· ≠ ':')).head? = some '<' := rfl
      simp only [this]
      decide)

theorem subClaspGo_dot (cur s : Str) (hc : cur ≠ []) (h : (subClaspGo cur s).head? = some '.') : cur.reverse.head? = some '.' := by
  induction s generalizing cur with
  | nil => exact subRun_dot _ h
  | cons a s ih =>
    unfold subClaspGo at h
    split_ifs at h with ha
    · cases hx : subRun cur.reverse with
      | nil =>
        exfalso
        unfold subRun at hx
        cases hy : afterLast "clasp_tmp".toList cur.reverse with
        | none => rw [hy] at hx; exact hc (by simpa using hx)
        | some t => rw [hy] at hx; simp at hx
      | cons c t =>
        rw [hx] at h
        exact subRun_dot _ (by rw [hx]; simpa using h)
    · have := ih (a :: cur) (by simp) h
      rw [List.reverse_cons] at this
      cases hx : cur.reverse with
      | nil => exact absurd (by simpa using hx) hc
      | cons c t => rw [hx] at this; simpa using this

theorem cleanLine_dot (l : Str) (h : Undotted l) : (cleanLine l).head? ≠ some '.' := by
  by_cases hs : strip l = []
  · unfold cleanLine
    rw [hs]
    decide
  · obtain ⟨c, s, h1, h2⟩ := strip_head l hs
    have hc : c ≠ '.' := by
      intro hc
      apply h
      have : lstrip l = [] ∨ ∃ t, lstrip l = c :: t := by
        unfold strip rstrip at h1
        cases hx : lstrip l with
        | nil => exact Or.inl rfl
        | cons d t =>
          right
          rw [hx] at h1
          have hp : ((d :: t).reverse.dropWhile isSpace).reverse <+: d :: t := by
            have := List.dropWhile_suffix (l := (d :: t).reverse) isSpace
            have := List.reverse_prefix.2 this
            simpa using this
          rw [h1] at hp
          obtain ⟨u, hu⟩ := hp
          simp only [List.cons_append, List.cons.injEq] at hu
          exact ⟨t, by rw [hu.1]⟩
      rcases this with h0 | ⟨t, h0⟩
      · exfalso
        apply hs
        unfold strip
        rw [h0]
        rfl
      · rw [h0, hc]; rfl
    unfold cleanLine
    rw [h1]
    unfold subClaspGo
    rw [if_neg (by simp [h2])]
    intro hh
    have := subClaspGo_dot [c] s (by simp) hh
    simp at this
    exact hc this

/-- such a line does not continue another one -/
theorem undotted_key (l : Str) (h : Undotted l) : (keyVal (cleanLine l)).1 ≠ "...".toList := by
  intro hk
  apply cleanLine_dot l h
  by_cases he : '=' ∈ cleanLine l
  · rw [keyVal_eq_mem _ he] at hk
    have hp := List.takeWhile_prefix (l := cleanLine l) (fun c => decide (c ≠ '='))
    simp only at hk
    rw [hk] at hp
    obtain ⟨t, ht⟩ := hp
    rw [← ht]
    rfl
  · unfold keyVal splitKV at hk
    rw [if_neg he] at hk
    simp only at hk
    split_ifs at hk with h0
    · simp only [Option.getD_none] at hk
      rw [hk]
      rfl
    · simp only [Option.getD_some] at hk
      by_cases hs : strip l = []
      · exfalso
        have e : cleanLine l = [] := by unfold cleanLine; rw [hs]; rfl
        rw [e] at hk
        exact absurd hk (by decide)
      · obtain ⟨c, s, h1, h2⟩ := cleanLine_head l hs
        have hl : lstrip (cleanLine l) = cleanLine l := by
          rw [h1]; unfold lstrip; rw [List.dropWhile_cons, if_neg (by simp [h2])]
        rw [hl] at hk
        have hp := List.takeWhile_prefix (l := cleanLine l) (fun c => !isSpace c)
        rw [hk] at hp
        obtain ⟨t, ht⟩ := hp
        rw [← ht]
        rfl

/-- the indentation of the further lines of an entry with a key starts like the entry -/
theorem undotted_cont (i q : Str) (h : Undotted i) (he : '=' ∈ i) : Undotted (contIndent i ++ q) := by
  have hm : '=' ∈ strip i := by
    unfold strip
    have h1 : '=' ∈ lstrip i := by
      unfold lstrip
      rw [← List.takeWhile_append_dropWhile (p := isSpace) (l := i)] at he
      rcases List.mem_append.1 he with h | h
      · exact absurd (List.mem_takeWhile_imp h) (by decide)
      · exact h
    exact (rstrip_eq _ h1).1
  have hs : strip i ≠ [] := by intro h0; rw [h0] at hm; simp at hm
  obtain ⟨c, s, h1, h2⟩ := strip_head i hs
  have hc : c ≠ '.' := by
    intro hc
    apply h
    unfold strip rstrip at h1
    cases hx : lstrip i with
    | nil => rw [hx] at h1; simp at h1
    | cons d t =>
      rw [hx] at h1
      have hp : ((d :: t).reverse.dropWhile isSpace).reverse <+: d :: t := by
        have := List.reverse_prefix.2 (List.dropWhile_suffix (l := (d :: t).reverse) isSpace)
        simpa using this
      rw [h1] at hp
      obtain ⟨u, hu⟩ := hp
      simp only [List.cons_append, List.cons.injEq] at hu
      rw [← hu.1, hc]
      rfl
  unfold contIndent
  rw [if_pos hm, h1]
  unfold Undotted lstrip
  rw [List.append_assoc, List.dropWhile_append, if_pos (by
    rw [List.isEmpty_iff, List.dropWhile_eq_nil_iff]
    intro x hx
    exact List.mem_takeWhile_imp hx)]
  rw [List.takeWhile_cons]
  by_cases hce : c = '='
  · subst hce
    simp only [ne_eq, not_true_eq_false, decide_false, Bool.false_eq_true, if_false, List.nil_append]
    have : (List.dropWhile isSpace ("= ".toList ++ q)).head? = some '=' := rfl
    rw [this]
    decide
  · simp only [ne_eq, hce, not_false_eq_true, decide_true, if_true, List.cons_append]
    rw [List.dropWhile_cons, if_neg (by simp [h2])]
    simpa using hc

/-- lines of the input that are neither blank nor start with a dot, and titles that do not -/
structure LinePlain (h : Str) : Prop where
  visible : strip h ≠ []
  line : Undotted h
  title : isSectionText (cleanLine h) = true → Undotted (sectionName (cleanLine h) ++ [':'])

/-- a text that starts with a visible character other than a dot -/
def Bold (s : Str) : Prop := ∃ c t, s = c :: t ∧ isSpace c = false ∧ c ≠ '.'

theorem Bold.undotted {s : Str} (h : Bold s) : Undotted s := by
  obtain ⟨c, t, rfl, h1, h2⟩ := h
  unfold Undotted lstrip
  rw [List.dropWhile_cons, if_neg (by simp [h1])]
  simpa using h2

theorem bold_cleanLine {h : Str} (hp : LinePlain h) : Bold (cleanLine h) := by
  obtain ⟨c, s, h1, h2⟩ := cleanLine_head h hp.visible
  refine ⟨c, s, h1, h2, ?_⟩
  intro hc
  apply cleanLine_dot h hp.line
  rw [h1, hc]
  rfl

theorem lineOk_plain {h : Str} (hp : LinePlain h) : LineOk Bold (fun n => Undotted (n ++ [':'])) h := by
  have hb := bold_cleanLine hp
  refine ⟨hp.title, fun _ _ => hb, fun _ => ?_, ?_⟩
  · by_cases he : '=' ∈ cleanLine h
    · rw [norm_mem _ he]
      exact hb
    · obtain ⟨c, s, hcl, hc, hd⟩ := hb
      unfold Header.norm keyVal splitKV
      rw [if_neg he]
      simp only
      have hl : lstrip (cleanLine h) = cleanLine h := by
        rw [hcl]; unfold lstrip; rw [List.dropWhile_cons, if_neg (by simp [hc])]
      rw [hl]
      split_ifs
      · refine ⟨c, s ++ [sepOf (cleanLine h)], ?_, hc, hd⟩
        rw [hcl]
        rfl
      · refine ⟨c, s.takeWhile (fun c => !isSpace c) ++ sepOf (cleanLine h) ::
          lstrip ((cleanLine h).dropWhile (fun c => !isSpace c)), ?_, hc, hd⟩
        simp only [Option.getD_some]
        conv_lhs => rw [hcl]
        rw [List.takeWhile_cons, if_pos (by simp [hc]), ← hcl]
        rfl
  · rintro _ s ⟨c, t, rfl, h1, h2⟩
    exact ⟨c, _, rfl, h1, h2⟩

/-- **C152** holds for headers without blank lines and without lines or titles that start with a dot, when the entries that are
too long for a line have a key. Missing: long lines without `=`, see `C152_refuted`. -/
theorem C152_partial (k : Cls) (width : Nat) (text : Str) (out : List Str) (hl : ∀ h ∈ splitlines text, LinePlain h)
    (he : ∀ st, run St.init (splitlines text) = .ok st → ∀ i ∈ cleanUp (-1) 0 st.files, i.length ≤ width ∨ '=' ∈ i)
    (h : cleanText (textwrap k) width text = .ok out) (m : Nat) (r : Except PyErr (List Str))
    (h2 : cleanRun k m width (joinWith '\n' out) = some r) : ∃ out', r = .ok out' := by
  rw [cleanRun_eq k m width _ r h2]
  have hg := good_run text
  unfold cleanText at h
  cases hr : run St.init (splitlines text) with
  | error e => rw [hr] at h; cases h
  | ok st =>
    rw [hr] at h
    injection h with h
    have hgood := hg st hr
    rw [assemble_eq _ (textwrap_ok k) width st hgood] at h
    have ha := all_run Bold (fun n => Undotted (n ++ [':'])) St.init wf_init (by simp [St.init]) _ (fun l h => lineOk_plain (hl l h))
      trivial st hr
    have hd := deep_run ((splitlines text).map lineDepth).sum _
      (fun l h => List.le_sum_of_mem (List.mem_map_of_mem h)) St.init st trivial hr
    have hent : ∀ i ∈ cleanUp (-1) 0 st.files, Undotted i := by
      intro i hi
      obtain ⟨n, t, -, rfl, h | ⟨m, rfl, h⟩⟩ := cleanUp_tabs _ _ _ st.files (-1) 0 (by omega) (by omega) ha hd i hi
      · exact (undotted_tabs n t).2 h.undotted
      · exact (undotted_tabs n _).2 h
    have hout : ∀ l ∈ splitlines (joinWith '\n' out), Undotted l := by
      have hst : st.view = Spec.lastView (splitlines text) := by
        have h2 := run_views St.init (splitlines text)
        rw [hr] at h2
        cases hx : run (St.init.setView none) ((splitlines text).filter fun h => !decide (Spec.isDropped h)) with
        | error e => rw [hx] at h2; cases h2
        | ok s =>
          rw [hx] at h2
          injection h2 with h2
          rw [h2]
          simp [St.setView, St.init]
      have hmem : ∀ l ∈ out, Good l ∧ Undotted l := by
        intro l hl
        rw [← h] at hl
        rcases List.mem_append.1 hl with hl | hl
        · obtain ⟨L, hL, hl⟩ := List.mem_flatten.1 hl
          obtain ⟨i, hi, rfl⟩ := List.mem_map.1 hL
          have hgi := cleanUp_good st.files (-1) 0 hgood i hi
          refine ⟨wrapped_good _ (textwrap_ok k) width i hgi l hl, ?_⟩
          have hj := (textwrap_ok k).join width (contIndent i) i
          unfold wrapped at hl
          cases hx : textwrap k width (contIndent i) i with
          | nil => rw [hx] at hl; simp at hl
          | cons p ps =>
            rw [hx] at hl hj
            rcases List.mem_cons.1 hl with rfl | hl
            · exact undotted_prefix ⟨_, hj⟩ (hent i hi)
            · obtain ⟨q, hq, rfl⟩ := List.mem_map.1 hl
              rcases he st hr i hi with hw | hw
              · have := (textwrap_ok k).fits width (contIndent i) i hgi.1 hw
                rw [hx] at this
                injection this with _ this
                rw [this] at hq
                simp at hq
              · exact undotted_cont i q (hent i hi) hw
        · rw [hst] at hl
          cases hx : Spec.lastView (splitlines text) with
          | none => rw [hx] at hl; simp at hl
          | some v =>
            rw [hx] at hl
            rw [show l = "VIEW=".toList ++ v from List.mem_singleton.1 hl]
            refine ⟨⟨by simp, ?_⟩, ?_⟩
            · unfold Spec.lastView at hx
              obtain ⟨y, hy, hv⟩ := List.mem_filterMap.1 (List.mem_of_getLast? hx)
              unfold Spec.viewValue at hv
              split_ifs at hv
              injection hv with hv
              rw [← hv]
              exact NB.append (by unfold NB; decide) (NB.of_subset (NB_cleanLine y (splitlines_pieces text y hy)) (keyVal_mem _).2)
            · have : (lstrip ("VIEW=".toList ++ v)).head? = some 'V' := rfl
              unfold Undotted
              rw [this]
              decide
      intro l hl
      rw [splitlines_join out fun l hl => ⟨(hmem l hl).1.1, (hmem l hl).1.2⟩] at hl
      exact (hmem l hl).2
    exact C15_accepted_partial _ _ _ fun l hl => undotted_key l (hout l hl)

/-- the header of `demoText` meets the hypotheses: its command is longer than a line and has an `=` -/
example : (∀ h ∈ splitlines demoText, LinePlain h) ∧
    ∀ st, run St.init (splitlines demoText) = .ok st → ∀ i ∈ cleanUp (-1) 0 st.files, i.length ≤ 150 ∨ '=' ∈ i := by
  constructor
  · have e : splitlines demoText = ["a.hdr:".toList,
        "\tpcomb -e lo=1 ".toList ++ (List.replicate 17 " picture.hdr".toList).flatten, "\tEXPOSURE=2".toList,
        "VIEW= -vta".toList] := by decide +kernel
    rw [e]
    intro h hh
    simp only [List.mem_cons, List.not_mem_nil, or_false] at hh
    rcases hh with rfl | rfl | rfl | rfl <;> exact ⟨by decide +kernel, by decide +kernel, by decide +kernel⟩
  · have e : run St.init (splitlines demoText) = .ok ⟨.sec "a.hdr".toList 0 (.str ("pcomb -e lo=1 ".toList ++
        (List.replicate 17 " picture.hdr".toList).flatten) (.str "EXPOSURE=2".toList .nil)) .nil, some " -vta".toList,
        ["EXPOSURE=2".toList, "pcomb -e lo=1 ".toList ++ (List.replicate 17 " picture.hdr".toList).flatten], [0],
        "EXPOSURE".toList⟩ := by decide +kernel
    intro st hst
    rw [e] at hst
    injection hst with hst
    rw [← hst]
    decide +kernel

end Verif.Textwrap
