import Verif.Lemmas.Textwrap
import Verif.Props.Header
import Verif.Lemmas.HeaderDepth
import Mathlib.Data.List.TakeWhile
/-! # Wrapping of header lines: C130, C131 -/
namespace Verif.Textwrap
open Verif.Py Verif.Header

/-! ## `textwrap` -/

theorem work_split (k : Cls) (t : Str) : work (split k t) ≤ 2 * t.length := by
  have := length_le_flatten _ (split_ne_nil k t)
  unfold work
  rw [split_flatten] at this ⊢
  omega

theorem wrapRun_ends (k : Cls) (w : Nat) (ind t : Str) (h : ind.length ≤ w ∨ t.length ≤ w) :
    ∃ r, wrapRun k (2 * t.length + 1) w ind t = some r := by
  unfold wrapRun
  rcases h with h | h
  · exact wrapGo_ends w _ h _ _ (by omega) _ ((work_split k t).trans (by omega))
  · by_cases ht : t = []
    · subst ht
      exact ⟨[], rfl⟩
    · exact ⟨_, wrapGo_fits w _ _ _ (by rwa [Ne, split_eq_nil]) (by rwa [split_flatten])⟩

/-- **C130** exactly when wrapping a text comes to an end: the text fits, or the indentation of the further lines does. -/
theorem C130_wrap (k : Cls) (w : Nat) (ind t : Str) :
    (∃ n r, wrapRun k n w ind t = some r) ↔ ind.length ≤ w ∨ t.length ≤ w := by
  constructor
  · rintro ⟨n, r, h⟩
    by_contra hc
    push Not at hc
    unfold wrapRun at h
    have hne : split k t ≠ [] := by
      rw [Ne, split_eq_nil]
      rintro rfl
      simp at hc
    cases hl : split k t with
    | nil => exact hne hl
    | cons c cs =>
      rw [hl] at h
      cases n with
      | zero => cases h
      | succ n =>
        unfold wrapGo at h
        rw [wrapGo_stuck w _ hc.1 n _ ?_] at h
        · cases h
        · intro h0
          have := (lineStep_rest_nil _ _ (by omega) h0).1
          rw [← hl, split_flatten] at this
          omega
  · intro h
    obtain ⟨r, hr⟩ := wrapRun_ends k w ind t h
    exact ⟨_, r, hr⟩

theorem wrapRun_eq (k : Cls) (n w : Nat) (ind t : Str) (r : List Str) (h : wrapRun k n w ind t = some r) :
    textwrap k w ind t = r := by
  have he := (C130_wrap k w ind t).1 ⟨n, r, h⟩
  obtain ⟨r', hr'⟩ := wrapRun_ends k w ind t he
  unfold textwrap
  rw [hr']
  unfold wrapRun at h hr'
  have h1 := wrapGo_mono _ _ _ _ _ _ h (max n (2 * t.length + 1)) (by omega)
  have h2 := wrapGo_mono _ _ _ _ _ _ hr' (max n (2 * t.length + 1)) (by omega)
  rw [h1] at h2
  injection h2 with h2
  exact h2.symm

/-- The model of `textwrap` meets the contract used for headers. -/
theorem textwrap_ok (k : Cls) : WrapOk (textwrap k) where
  join w ind t := by
    unfold textwrap
    cases h : wrapRun k (2 * t.length + 1) w ind t with
    | none => simp
    | some r =>
      simp only [Option.getD_some]
      rw [wrapGo_flatten _ _ _ _ _ _ h, split_flatten]
  head w ind t p ps hp := by
    unfold textwrap at hp
    cases h : wrapRun k (2 * t.length + 1) w ind t with
    | none =>
      rw [h] at hp
      injection hp with hp
      subst hp
      rintro rfl
      cases h
    | some r =>
      rw [h] at hp
      simp only [Option.getD_some] at hp
      subst hp
      unfold wrapRun at h
      cases hl : split k t with
      | nil => rw [hl] at h; cases h
      | cons c cs =>
        rw [hl] at h
        unfold wrapGo at h
        cases hx : wrapGo w ind.length (2 * t.length) ((w : Int) - ind.length) (lineStep w (c :: cs)).2 with
        | none => rw [hx] at h; cases h
        | some r' =>
          rw [hx] at h
          injection h with h
          injection h with h
          rw [← h]
          exact lineStep_ne_nil _ (by omega) c (split_ne_nil k t c (by rw [hl]; simp)) cs
  fits w ind t ht h := by
    unfold textwrap wrapRun
    rw [wrapGo_fits w _ _ _ (by rwa [Ne, split_eq_nil]) (by rwa [split_flatten]), split_flatten]
    rfl

/-- **C131** for one text: with room for one character behind the indentation, no line is wider than asked for. -/
theorem C131_wrap (k : Cls) (w : Nat) (ind t : Str) (h : ind.length < w) :
    (∀ p ∈ (textwrap k w ind t).head?, p.length ≤ w) ∧ ∀ p ∈ (textwrap k w ind t).tail, ind.length + p.length ≤ w := by
  obtain ⟨r, hr⟩ := wrapRun_ends k w ind t (Or.inl h.le)
  unfold textwrap
  rw [hr, Option.getD_some]
  have := wrapGo_width w ind.length _ h (w : Int) (by omega) _ _ hr
  exact ⟨fun p hp => by exact_mod_cast this.1 p hp, this.2⟩

/-! ## C130: `clean_header` returns -/

/-- **C130**, the full claim: cleaning a header comes to an end. -/
def C130_statement : Prop := ∀ (k : Cls) (text : Str), ∃ n, (cleanRun k n 150 text).isSome

/-- the condition of `C130_wrap` for every entry of the result -/
def EntriesOk (width : Nat) (text : Str) : Prop :=
  ∀ st, run St.init (splitlines text) = .ok st → ∀ i ∈ cleanUp (-1) 0 st.files,
    (contIndent i).length ≤ width ∨ i.length ≤ width

theorem good_run (text : Str) (st : St) (hr : run St.init (splitlines text) = .ok st) : Forest.all Good NB st.files :=
  all_run Good NB St.init wf_init (by simp [St.init]) _ (fun l hl => lineOk_good l (splitlines_pieces text l hl)) trivial st hr

theorem assemble_congr (wr wr' : Nat → Str → Str → List Str) (w : Nat) (st : St)
    (h : ∀ i ∈ cleanUp (-1) 0 st.files, wr w (contIndent i) i = wr' w (contIndent i) i) :
    assemble wr w st = assemble wr' w st := by
  unfold assemble
  congr 3
  refine List.map_congr_left fun i hi => ?_
  unfold fill
  rw [h i hi]

/-- What `clean_header` returns, when it does, is the value of the model used for C12 - C16, C125 and C129. -/
theorem cleanRun_eq (k : Cls) (n width : Nat) (text : Str) (r : Except PyErr (List Str))
    (h : cleanRun k n width text = some r) : r = cleanText (textwrap k) width text := by
  unfold cleanRun at h
  unfold cleanText
  cases hr : run St.init (splitlines text) with
  | error e => rw [hr] at h; injection h with h; rw [← h]; rfl
  | ok st =>
    rw [hr] at h
    simp only at h
    split_ifs at h with hc
    injection h with h
    rw [← h]
    congr 1
    refine assemble_congr _ _ _ _ fun i hi => ?_
    have := List.all_eq_true.1 hc i hi
    obtain ⟨p, hp⟩ := Option.isSome_iff_exists.1 this
    simp only [hp, Option.getD_some, wrapRun_eq k n _ _ _ p hp]

/-- **C130** exactly when cleaning a header comes to an end: every entry of the result that is longer than a line has an
indentation for its further lines (white space, the text before its first `=` and two characters) that is not. -/
theorem C130_iff (k : Cls) (width : Nat) (text : Str) :
    (∃ n r, cleanRun k n width text = some r) ↔ EntriesOk width text := by
  unfold EntriesOk cleanRun
  cases hr : run St.init (splitlines text) with
  | error e => simp
  | ok st =>
    simp only [Except.ok.injEq, forall_eq']
    constructor
    · rintro ⟨n, r, h⟩ i hi
      split_ifs at h with hc
      obtain ⟨p, hp⟩ := Option.isSome_iff_exists.1 (List.all_eq_true.1 hc i hi)
      exact (C130_wrap k width _ i).1 ⟨n, p, hp⟩
    · intro h
      have : ∃ n, ∀ i ∈ cleanUp (-1) 0 st.files, (wrapRun k n width (contIndent i) i).isSome := by
        generalize cleanUp (-1) 0 st.files = L at h
        induction L with
        | nil => exact ⟨0, by simp⟩
        | cons i L ih =>
          obtain ⟨n, hn⟩ := ih fun x hx => h x (by simp [hx])
          obtain ⟨m, r, hm⟩ := (C130_wrap k width (contIndent i) i).2 (h i (by simp))
          refine ⟨max m n, ?_⟩
          intro x hx
          rcases List.mem_cons.1 hx with rfl | hx
          · unfold wrapRun at hm ⊢
            rw [wrapGo_mono _ _ _ _ _ _ hm _ (le_max_left m n)]
            rfl
          · obtain ⟨p, hp⟩ := Option.isSome_iff_exists.1 (hn x hx)
            unfold wrapRun at hp ⊢
            rw [wrapGo_mono _ _ _ _ _ _ hp _ (le_max_right m n)]
            rfl
      obtain ⟨n, hn⟩ := this
      refine ⟨n, .ok (assemble (fun w ind t => (wrapRun k n w ind t).getD []) width st), ?_⟩
      rw [if_pos (List.all_eq_true.2 hn)]

/-- a combination of twelve pictures and the expression for the result -/
def longCommand : Str :=
  "pcomb".toList ++ (List.replicate 12 " picture00.hdr".toList).flatten ++ " -e lo=li(1)".toList

/-- The claim is false: for a command of more than 150 characters whose first `=` stands behind column 148, `clean_header`
runs for ever. -/
theorem C130_refuted : ¬ C130_statement := by
  intro h
  obtain ⟨n, hn⟩ := h ascii longCommand
  obtain ⟨r, hr⟩ := Option.isSome_iff_exists.1 hn
  have h1 := (C130_iff ascii 150 longCommand).1 ⟨n, r, hr⟩
  have h2 : run St.init (splitlines longCommand) = .ok ⟨.str longCommand .nil, none, [longCommand], [],
      longCommand.takeWhile (· ≠ '=')⟩ := by decide +kernel
  have := h1 _ h2 longCommand (by simp [cleanUp])
  revert this
  decide +kernel

/-! ### headers for which it returns -/

/-- the text before the first `=`, if there is one, is no longer than `K` -/
def KeyLe (K : Nat) (s : Str) : Prop := (∃ c s', s = c :: s' ∧ isSpace c = false) ∧ ('=' ∈ s → (s.takeWhile (· ≠ '=')).length ≤ K)

theorem takeWhile_append_mem (s t : Str) (h : '=' ∈ s) : (s ++ t).takeWhile (· ≠ '=') = s.takeWhile (· ≠ '=') := by
  rw [List.takeWhile_append]
  split_ifs with hl
  · exfalso
    have : s.takeWhile (· ≠ '=') = s := (List.takeWhile_prefix _).eq_of_length (by simpa using hl)
    have := List.mem_takeWhile_imp (this ▸ h)
    simp at this
  · rfl

theorem rstrip_eq (s : Str) (h : '=' ∈ s) : '=' ∈ rstrip s ∧ (rstrip s).takeWhile (· ≠ '=') = s.takeWhile (· ≠ '=') := by
  obtain ⟨t, ht, hs⟩ : ∃ t, s = rstrip s ++ t ∧ ∀ c ∈ t, isSpace c = true := by
    refine ⟨(s.reverse.takeWhile isSpace).reverse, ?_, ?_⟩
    · unfold rstrip
      rw [← List.reverse_append, List.takeWhile_append_dropWhile, List.reverse_reverse]
    · intro c hc
      rw [List.mem_reverse] at hc
      exact List.mem_takeWhile_imp hc
  have h1 : '=' ∈ rstrip s := by
    rw [ht] at h
    rcases List.mem_append.1 h with h | h
    · exact h
    · exact absurd (hs _ h) (by decide)
  refine ⟨h1, ?_⟩
  conv_rhs => rw [ht]
  rw [takeWhile_append_mem _ _ h1]

theorem contIndent_tabs (n : Nat) (s : Str) : contIndent (List.replicate n '\t' ++ s) = List.replicate n '\t' ++ contIndent s := by
  unfold contIndent
  induction n with
  | zero => rfl
  | succ n ih =>
    rw [List.replicate_succ, List.cons_append]
    have h1 : strip ('\t' :: (List.replicate n '\t' ++ s)) = strip (List.replicate n '\t' ++ s) := by
      unfold strip lstrip
      rw [List.dropWhile_cons, if_pos (by decide)]
    rw [h1, List.takeWhile_cons, if_pos (by decide), List.cons_append, ih]
    rfl

theorem contIndent_le (K : Nat) (s : Str) (h : KeyLe K s) : (contIndent s).length ≤ max (K + 2) 8 := by
  obtain ⟨⟨c, s', rfl, hc⟩, hk⟩ := h
  unfold contIndent
  have h1 : strip (c :: s') = rstrip (c :: s') := by
    unfold strip lstrip
    rw [List.dropWhile_cons, if_neg (by simp [hc])]
  rw [h1, List.takeWhile_cons, if_neg (by simp [hc]), List.nil_append]
  split_ifs with h2
  · have hm : '=' ∈ c :: s' := strip_mem _ _ (by rw [h1]; exact h2)
    rw [(rstrip_eq _ hm).2, List.length_append]
    have := hk hm
    have e : ("= ".toList).length = 2 := rfl
    omega
  · exact le_max_right _ _

/-- lines of the input with short keys: not blank, at most one `=` and that not behind column `K`; titles of at most `M`
characters, at most `D` deep -/
structure LineShort (K M D : Nat) (h : Str) : Prop where
  visible : strip h ≠ []
  one : '=' ∉ ((cleanLine h).dropWhile (· ≠ '=')).tail
  key : '=' ∈ cleanLine h → ((cleanLine h).takeWhile (· ≠ '=')).length ≤ K
  title : isSectionText (cleanLine h) = true → (cleanLine h).length ≤ M
  depth : lineDepth h ≤ D

theorem keyVal_eq_mem (cl : Str) (h : '=' ∈ cl) :
    keyVal cl = (cl.takeWhile (· ≠ '='), (cl.dropWhile (· ≠ '=')).tail) := by
  unfold keyVal splitKV
  rw [if_pos h]
  rfl

theorem norm_mem (cl : Str) (h : '=' ∈ cl) : norm cl = cl := by
  unfold norm sepOf
  rw [keyVal_eq_mem cl h, if_pos h]
  simp only
  have hd : cl.dropWhile (· ≠ '=') ≠ [] := by
    intro h0
    rw [List.dropWhile_eq_nil_iff] at h0
    simpa using h0 _ h
  have hh : cl.dropWhile (· ≠ '=') = '=' :: (cl.dropWhile (· ≠ '=')).tail := by
    have h1 := List.head_dropWhile_not (fun c => decide (c ≠ '=')) (l := cl) hd
    have h2 : (cl.dropWhile (· ≠ '=')).head hd = '=' := by simpa using h1
    conv_lhs => rw [← List.cons_head_tail hd, h2]
  conv_rhs => rw [← List.takeWhile_append_dropWhile (p := fun c => decide (c ≠ '=')) (l := cl)]
  rw [← hh]

theorem keyVal_snd_one {K M D : Nat} {h : Str} (hs : LineShort K M D h) : '=' ∉ (keyVal (cleanLine h)).2 := by
  by_cases he : '=' ∈ cleanLine h
  · rw [keyVal_eq_mem _ he]
    exact hs.one
  · exact fun hm => he ((keyVal_mem _).2 _ hm)

theorem lineOk_short {K M D : Nat} {h : Str} (hs : LineShort K M D h) :
    LineOk (KeyLe K) (fun n => n.length + 1 ≤ M) h := by
  obtain ⟨c, s, hcl, hc⟩ := cleanLine_head h hs.visible
  refine ⟨?_, ?_, ?_, ?_⟩
  · intro ht
    have h1 := hs.title ht
    have h2 : (sectionName (cleanLine h)).length ≤ (cleanLine h).length - 1 := by
      unfold sectionName
      rw [List.length_dropLast, List.length_reverse]
      have := (List.takeWhile_prefix (l := (cleanLine h).reverse) (· ≠ '/')).length_le
      rw [List.length_reverse] at this
      omega
    have h3 : 1 ≤ (cleanLine h).length := by rw [hcl]; simp
    omega
  · intro _ _
    exact ⟨⟨c, s, hcl, hc⟩, hs.key⟩
  · intro _
    by_cases he : '=' ∈ cleanLine h
    · rw [norm_mem _ he]
      exact ⟨⟨c, s, hcl, hc⟩, hs.key⟩
    · have hno : '=' ∉ norm (cleanLine h) := by
        unfold norm sepOf
        rw [if_neg he, List.mem_append, List.mem_cons]
        rintro (h1 | h1 | h1)
        · exact he ((keyVal_mem _).1 _ h1)
        · revert h1; decide
        · exact he ((keyVal_mem _).2 _ h1)
      refine ⟨?_, fun hm => absurd hm hno⟩
      unfold norm keyVal splitKV
      rw [if_neg he]
      simp only
      have hl : lstrip (cleanLine h) = cleanLine h := by
        rw [hcl]; unfold lstrip; rw [List.dropWhile_cons, if_neg (by simp [hc])]
      rw [hl]
      split_ifs
      · refine ⟨c, s ++ [sepOf (cleanLine h)], ?_, hc⟩
        rw [hcl]
        rfl
      · refine ⟨c, s.takeWhile (fun c => !isSpace c) ++ sepOf (cleanLine h) ::
          lstrip ((cleanLine h).dropWhile (fun c => !isSpace c)), ?_, hc⟩
        simp only [Option.getD_some]
        conv_lhs => rw [hcl]
        rw [List.takeWhile_cons, if_pos (by simp [hc]), ← hcl]
        rfl
  · intro _ s' hs'
    obtain ⟨⟨d, t, rfl, hd⟩, hk⟩ := hs'
    refine ⟨⟨d, _, rfl, hd⟩, fun hm => ?_⟩
    have hm' : '=' ∈ d :: t := by
      rcases List.mem_append.1 hm with h1 | h1
      · exact h1
      · rcases List.mem_cons.1 h1 with h1 | h1
        · exact absurd h1 (by decide)
        · exact absurd (lstrip_mem _ _ h1) (keyVal_snd_one hs)
    rw [takeWhile_append_mem _ _ hm']
    exact hk hm'

/-- Entries of the result for such lines. -/
theorem entries_short (K M D : Nat) (text : Str) (hl : ∀ h ∈ splitlines text, LineShort K M D h) (st : St)
    (hr : run St.init (splitlines text) = .ok st) (i : Str) (hi : i ∈ cleanUp (-1) 0 st.files) :
    (contIndent i).length ≤ D + 1 + max (K + 2) 8 ∨ i.length ≤ D + 1 + M := by
  have ha := all_run (KeyLe K) (fun n => n.length + 1 ≤ M) St.init wf_init (by simp [St.init]) _
    (fun l h => lineOk_short (hl l h)) trivial st hr
  have hd := deep_run D _ (fun l h => (hl l h).depth) St.init st trivial hr
  obtain ⟨n, t, hn, rfl, h | ⟨m, rfl, h⟩⟩ := cleanUp_tabs D _ _ st.files (-1) 0 (by omega) (by omega) ha hd i hi
  · left
    rw [contIndent_tabs, List.length_append, List.length_replicate]
    have := contIndent_le K t h
    omega
  · right
    simp only [List.length_append, List.length_replicate, List.length_singleton]
    omega

/-- **C130** holds for headers without blank lines whose lines have at most one `=`, near enough to the start of the line, and
that are not too deep. Missing: `C130_iff` says exactly for which headers it fails, in terms of the entries of the result. -/
theorem C130_partial (k : Cls) (K M D : Nat) (hK : D + K + 3 ≤ 150) (hD : D + 9 ≤ 150) (hM : D + 1 + M ≤ 150) (text : Str)
    (hl : ∀ h ∈ splitlines text, LineShort K M D h) : ∃ n, (cleanRun k n 150 text).isSome := by
  obtain ⟨n, r, h⟩ := (C130_iff k 150 text).2 (by
    intro st hr i hi
    rcases entries_short K M D text hl st hr i hi with h | h
    · left; omega
    · right; omega)
  exact ⟨n, by rw [h]; rfl⟩

/-! ## C131: the width of header lines -/

/-- **C131**, the full claim: no line of a cleaned header is longer than 150 characters. -/
def C131_statement : Prop :=
  ∀ (k : Cls) (n : Nat) (text : Str) (out : List Str), cleanRun k n 150 text = some (.ok out) → ∀ l ∈ out, l.length ≤ 150

theorem wrapped_width (k : Cls) (w : Nat) (i : Str) (hi : i ≠ []) (h : (contIndent i).length < w ∨ i.length ≤ w) :
    ∀ l ∈ wrapped (textwrap k) w i, l.length ≤ w := by
  intro l hl
  unfold wrapped at hl
  rcases h with h | h
  · obtain ⟨h1, h2⟩ := C131_wrap k w (contIndent i) i h
    cases hx : textwrap k w (contIndent i) i with
    | nil => rw [hx] at hl; simp at hl
    | cons p ps =>
      rw [hx] at hl h1 h2
      rcases List.mem_cons.1 hl with rfl | hl
      · exact h1 _ (by simp)
      · obtain ⟨q, hq, rfl⟩ := List.mem_map.1 hl
        rw [List.length_append]
        exact h2 q hq
  · rw [(textwrap_ok k).fits w _ i hi h] at hl
    rw [show l = i from List.mem_singleton.1 hl]
    exact h

/-- **C131** what the width of the lines depends on: the view line is not wrapped, and an entry is wrapped to the width when there
is room for its indentation. -/
theorem C131_entries (k : Cls) (n width : Nat) (text : Str) (out : List Str) (h : cleanRun k n width text = some (.ok out))
    (he : ∀ st, run St.init (splitlines text) = .ok st → ∀ i ∈ cleanUp (-1) 0 st.files,
      (contIndent i).length < width ∨ i.length ≤ width)
    (hv : ∀ v ∈ Spec.lastView (splitlines text), 5 + v.length ≤ width) : ∀ l ∈ out, l.length ≤ width := by
  have h1 := cleanRun_eq k n width text _ h
  unfold cleanText at h1
  cases hr : run St.init (splitlines text) with
  | error e => rw [hr] at h1; cases h1
  | ok st =>
    rw [hr] at h1
    injection h1 with h1
    rw [assemble_eq _ (textwrap_ok k) width st (good_run text st hr)] at h1
    have hst : st.view = Spec.lastView (splitlines text) := by
      have h2 := run_views St.init (splitlines text)
      rw [hr] at h2
      cases hx : run (St.init.setView none) ((splitlines text).filter fun h => !decide (Spec.isDropped h)) with
      | error e => rw [hx] at h2; cases h2
      | ok s =>
        rw [hx] at h2
        injection h2 with h2
        rw [h2]
        simp [St.setView, St.init]
    intro l hl
    rw [h1] at hl
    rcases List.mem_append.1 hl with hl | hl
    · obtain ⟨L, hL, hl⟩ := List.mem_flatten.1 hl
      obtain ⟨i, hi, rfl⟩ := List.mem_map.1 hL
      exact wrapped_width k width i (cleanUp_good st.files (-1) 0 (good_run text st hr) i hi).1 (he st hr i hi) l hl
    · rw [hst] at hl
      cases hx : Spec.lastView (splitlines text) with
      | none => rw [hx] at hl; simp at hl
      | some v =>
        rw [hx] at hl
        rw [show l = "VIEW=".toList ++ v from List.mem_singleton.1 hl, List.length_append]
        exact hv v (by rw [hx]; rfl)

/-- **C131** holds for headers with short lines as in `C130_partial` and a short view. Missing: `C131_entries` says what else may
happen. -/
theorem C131_partial (k : Cls) (K M D : Nat) (hK : D + K + 4 ≤ 150) (hD : D + 10 ≤ 150) (hM : D + 1 + M ≤ 150) (n : Nat)
    (text : Str) (out : List Str) (hl : ∀ h ∈ splitlines text, LineShort K M D h)
    (hv : ∀ v ∈ Spec.lastView (splitlines text), v.length ≤ 145) (h : cleanRun k n 150 text = some (.ok out)) :
    ∀ l ∈ out, l.length ≤ 150 := by
  refine C131_entries k n 150 text out h ?_ fun v hx => by have := hv v hx; omega
  intro st hr i hi
  rcases entries_short K M D text hl st hr i hi with h | h
  · left; omega
  · right; omega

/-- a view line of 205 characters -/
def longView : Str := "VIEW=".toList ++ List.replicate 200 'x'

/-- The claim is false: view lines are not wrapped. -/
theorem C131_refuted : ¬ C131_statement := by
  intro h
  have h1 : cleanRun ascii 1 150 longView = some (.ok [longView]) := by decide +kernel
  exact absurd (h ascii 1 longView _ h1 longView (by simp)) (by decide +kernel)

/-- Besides: an entry whose indentation is exactly as wide as the line is broken into lines of one character more. -/
theorem C131_one_more : cleanRun ascii 10 150 (List.replicate 148 'k' ++ "=abcd".toList) =
    some (.ok [List.replicate 148 'k' ++ "=a".toList, List.replicate 148 'k' ++ "= b".toList,
      List.replicate 148 'k' ++ "= c".toList, List.replicate 148 'k' ++ "= d".toList, List.replicate 148 'k' ++ "= ".toList]) := by
  decide +kernel

/-- a header with a command of 200 characters -/
def demoText : Str :=
  "a.hdr:\n\tpcomb -e lo=1 ".toList ++ (List.replicate 17 " picture.hdr".toList).flatten ++ "\n\tEXPOSURE=2\nVIEW= -vta\n".toList

/-- it meets the hypotheses of `C130_partial` and `C131_partial` -/
theorem demo_short : ∀ h ∈ splitlines demoText, LineShort 20 20 1 h := by
  have e : splitlines demoText = ["a.hdr:".toList,
      "\tpcomb -e lo=1 ".toList ++ (List.replicate 17 " picture.hdr".toList).flatten, "\tEXPOSURE=2".toList,
      "VIEW= -vta".toList] := by decide +kernel
  rw [e]
  intro h hh
  simp only [List.mem_cons, List.not_mem_nil, or_false] at hh
  rcases hh with rfl | rfl | rfl | rfl <;>
    exact ⟨by decide +kernel, by decide +kernel, by decide +kernel, by decide +kernel, by decide +kernel⟩

example : ∃ n, (cleanRun ascii n 150 demoText).isSome :=
  C130_partial ascii 20 20 1 (by omega) (by omega) (by omega) demoText demo_short

/-- ... and it is wrapped -/
example : cleanRun ascii 40 150 demoText = some (.ok ["a.hdr:".toList,
    "\tpcomb -e lo=1 ".toList ++ (List.replicate 11 " picture.hdr".toList).flatten ++ " ".toList,
    "\tpcomb -e lo= picture.hdr".toList ++ (List.replicate 5 " picture.hdr".toList).flatten, "\tEXPOSURE=2".toList,
    "VIEW= -vta".toList]) := by decide +kernel

end Verif.Textwrap
