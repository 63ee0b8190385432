import Mathlib.Data.List.Range
import Verif.Lemmas.HeaderRun
/-!
# C12 - C16: header clean-up and header look-up

Line vocabulary used by the statements: `cleanLine h` is the stripped line with temporary file names replaced,
`keyVal` its key and value (`keyVal_equals`, `keyVal_words`, `keyVal_single` below say what these are), a section line ends
in a colon.
-/
namespace Verif.Header
open Verif.Py Forest

/-! ## What key and value of a line are -/

theorem takeWhile_append_stop (p : Char → Bool) (k : Str) (c : Char) (v : Str) (hk : ∀ x ∈ k, p x = true) (hc : p c = false) :
    (k ++ c :: v).takeWhile p = k ∧ (k ++ c :: v).dropWhile p = c :: v := by
  induction k with
  | nil => simp [hc]
  | cons a k ih => 
    have ha := hk a (by simp)
    have := ih (fun x hx => hk x (by simp [hx]))
    simp [ha, this]

/-- `key=value`. -/
theorem keyVal_equals (k v : Str) (hk : '=' ∉ k) : keyVal (k ++ '=' :: v) = (k, v) := by
  have h := takeWhile_append_stop (· ≠ '=') k '=' v (by intro x hx; simp; rintro rfl; exact hk hx) (by simp)
  unfold keyVal splitKV
  rw [if_pos (by simp), h.1, h.2]
  rfl

/-- `key value` without an equals sign: the first word and the rest. -/
theorem keyVal_words (k v : Str) (ws : Str) (c : Char) (h1 : '=' ∉ k ++ ws ++ c :: v) (hk : k ≠ [])
    (hks : ∀ x ∈ k, isSpace x = false) (hw : ws ≠ []) (hws : ∀ x ∈ ws, isSpace x = true) (hc : isSpace c = false) :
    keyVal (k ++ ws ++ c :: v) = (k, c :: v) := by
  unfold keyVal splitKV
  rw [if_neg h1]
  obtain ⟨a, k', rfl⟩ := List.exists_cons_of_ne_nil hk
  obtain ⟨w, ws', rfl⟩ := List.exists_cons_of_ne_nil hw
  have hl : lstrip (a :: k' ++ w :: ws' ++ c :: v) = a :: k' ++ w :: (ws' ++ c :: v) := by
    have : isSpace a = false := hks a (by simp)
    simp [lstrip, this]
  have h := takeWhile_append_stop (fun c => !isSpace c) (a :: k') w (ws' ++ c :: v) (by intro x hx; simp [hks x hx]) (by simp [hws w (by simp)])
  have hr : lstrip (w :: (ws' ++ c :: v)) = c :: v := by
    have hd : ∀ l : Str, (∀ x ∈ l, isSpace x = true) → (l ++ c :: v).dropWhile isSpace = c :: v := by
      intro l; induction l with
      | nil => intro _; simp [hc]
      | cons y l ih => intro hy; simp [hy y (by simp), ih (fun x hx => hy x (by simp [hx]))]
    exact hd (w :: ws') hws
  simp only [hl, h.1, h.2, hr]
  rfl

/-- A line of one word is its own key. -/
theorem keyVal_single (k : Str) (h1 : '=' ∉ k) (hks : ∀ x ∈ k, isSpace x = false) : keyVal k = (k, []) := by
  unfold keyVal splitKV
  rw [if_neg h1]
  have h2 : lstrip k = k := by cases k with
    | nil => rfl
    | cons a k => simp [lstrip, hks a (by simp)]
  have h3 : k.dropWhile (fun c => !isSpace c) = [] := by
    have : ∀ l : Str, (∀ x ∈ l, isSpace x = false) → l.dropWhile (fun c => !isSpace c) = [] := by
      intro l; induction l with
      | nil => intro _; rfl
      | cons y l ih => intro hy; simp [hy y (by simp), ih (fun x hx => hy x (by simp [hx]))]
    exact this k hks
  simp only [h2, h3]
  rfl

/-! ## C13 -/

/-- A VIEW, pvalue or FORMAT line. -/
def Spec.isDropped (h : Str) : Prop :=
  isSectionText (cleanLine h) = false ∧ ((keyVal (cleanLine h)).1 = "pvalue".toList ∨
    (keyVal (cleanLine h)).1 = "FORMAT".toList ∨ (keyVal (cleanLine h)).1 = "VIEW".toList)

instance (h : Str) : Decidable (Spec.isDropped h) := by unfold Spec.isDropped; infer_instance

/-- The value of a VIEW line. -/
def Spec.viewValue (h : Str) : Option Str :=
  if isSectionText (cleanLine h) = false ∧ (keyVal (cleanLine h)).1 = "VIEW".toList then some (keyVal (cleanLine h)).2 else none

/-- The values of all VIEW lines, in order; the last one counts. -/
def Spec.lastView (lines : List Str) : Option Str := (lines.filterMap Spec.viewValue).getLast?

/-- The header line for a view. -/
def Spec.viewLine : Option Str → List Str
  | none => []
  | some v => ["VIEW=".toList ++ v]

def St.setView (v : Option Str) (st : St) : St := { st with view := v }

theorem step_setView (st : St) (v : Option Str) (h : Str) (hd : ¬ Spec.isDropped h) :
    step (st.setView v) h = (step st h).map (St.setView v) := by
  by_cases hs : isSectionText (cleanLine h) = true
  · unfold step
    rw [if_pos hs, if_pos hs]
    unfold sectionStep
    change (do
      let F ← Forest.modAt (csSection st.cs (lineDepth h)).length (fun c => .ok (c.pushSec (sectionName (cleanLine h)) (lineDepth h))) st.files
      return _) = _
    cases Forest.modAt (csSection st.cs (lineDepth h)).length (fun c => .ok (c.pushSec (sectionName (cleanLine h)) (lineDepth h))) st.files <;> rfl
  · have hk : isKept h := by
      have hs' : isSectionText (cleanLine h) = false := by simpa using hs
      refine ⟨hs', ?_, ?_, ?_⟩ <;> intro hh <;> exact hd ⟨hs', by simp [hh]⟩
    rw [step_kept _ _ hk, step_kept _ _ hk]
    have : keepStep (st.setView v) (cleanLine h) (lineDepth h) = (keepStep st (cleanLine h) (lineDepth h)).map (St.setView v) := by
      obtain ⟨files, view, vals, cs, lastkey⟩ := st
      unfold keepStep St.setView
      dsimp only
      by_cases h1 : (keyVal (cleanLine h)).1 = "...".toList ∨
          ((keyVal (cleanLine h)).1 = lastkey ∧ Forest.getAt cs.length files ≠ some Forest.nil)
      · rw [if_pos h1, if_pos h1]
        unfold continueStep
        dsimp only
        cases Forest.modAt cs.length (extendLast (' ' :: lstrip (keyVal (cleanLine h)).2)) files with
        | error e => rfl
        | ok F => cases vals <;> rfl
      · rw [if_neg h1, if_neg h1]
        by_cases h2 : cleanLine h ∈ vals
        · rw [if_pos h2, if_pos h2]
          unfold promoteStep
          dsimp only
          cases (pop (cleanLine h) [] 0 files).1 with
          | none => rfl
          | some idx => simp only; cases promote (cleanLine h) idx (pop (cleanLine h) [] 0 files).2 <;> rfl
        · rw [if_neg h2, if_neg h2]
          unfold newStep
          dsimp only
          cases Forest.modAt (csLine cs (lineDepth h)).length (fun c => .ok (c.pushStr (norm (cleanLine h)))) files <;> rfl
    rw [this]
    cases keepStep st (cleanLine h) (lineDepth h) <;> rfl

theorem run_views (st : St) (lines : List Str) :
    run st lines = (run (st.setView none) (lines.filter (fun h => !decide (Spec.isDropped h)))).map
      (St.setView ((Spec.lastView lines).or st.view)) := by
  induction lines generalizing st with
  | nil => simp [run, Spec.lastView, St.setView, Except.map]
  | cons h hs ih =>
    by_cases hd : Spec.isDropped h
    · simp only [List.filter_cons, hd, decide_true, Bool.not_true, Bool.false_eq_true, if_false, run]
      obtain ⟨hs0, hk⟩ := hd
      by_cases hv : (keyVal (cleanLine h)).1 = "VIEW".toList
      · have hst : step st h = .ok (st.setView (some (keyVal (cleanLine h)).2)) := by
          unfold step
          rw [if_neg (by simp [hs0]), if_neg (by rw [hv]; decide), if_pos hv]; rfl
        rw [hst]
        change run _ hs = _
        rw [ih]
        have hvv : Spec.viewValue h = some (keyVal (cleanLine h)).2 := by simp only [Spec.viewValue]; rw [if_pos ⟨hs0, hv⟩]
        have hl : Spec.lastView (h :: hs) = (Spec.lastView hs).or (some (keyVal (cleanLine h)).2) := by
          unfold Spec.lastView
          rw [List.filterMap_cons, hvv]
          simp only [List.getLast?_cons]
          cases (hs.filterMap Spec.viewValue).getLast? <;> rfl
        rw [hl]
        congr 1
        simp [St.setView]
      · have hp : (keyVal (cleanLine h)).1 = "pvalue".toList ∨ (keyVal (cleanLine h)).1 = "FORMAT".toList := by tauto
        have hst : step st h = .ok st := by
          unfold step; rw [if_neg (by simp [hs0]), if_pos hp]
        rw [hst]
        change run _ hs = _
        rw [ih]
        have hvv : Spec.viewValue h = none := by simp only [Spec.viewValue]; rw [if_neg (fun hh => hv hh.2)]
        have hl : Spec.lastView (h :: hs) = Spec.lastView hs := by
          unfold Spec.lastView; rw [List.filterMap_cons, hvv]
        rw [hl]
    · have hvv : Spec.viewValue h = none := by
        simp only [Spec.viewValue]; rw [if_neg (fun hh => hd ⟨hh.1, Or.inr (Or.inr hh.2)⟩)]
      have hl : Spec.lastView (h :: hs) = Spec.lastView hs := by
        unfold Spec.lastView; rw [List.filterMap_cons, hvv]
      simp only [List.filter_cons, hd, decide_false, Bool.not_false, if_true, run]
      rw [step_setView st none h hd, hl]
      cases hx : step st h with
      | error e => rfl
      | ok s =>
        have hview : s.view = st.view := by
          have := step_setView st st.view h hd
          have hid : st.setView st.view = st := rfl
          rw [hid, hx] at this
          injection this with this
          rw [this]; rfl
        change run s hs = (run (s.setView none) _).map _
        rw [ih s, hview]

/-- C13. The cleaned header is the cleaned header of the input without its VIEW, pvalue and FORMAT lines (so nothing in it
stems from such a line), followed by exactly one VIEW line, with the value of the last VIEW line of the input, if the input
has one. This also holds for the exception, if one is raised. Arbitrary `wrap` (textwrap) and header width. -/
theorem C13_only_last_view (wrap : Nat → Str → Str → List Str) (w : Nat) (text : Str) :
    cleanText wrap w text =
      (cleanText wrap w (unlines ((splitlines text).filter (fun h => !decide (Spec.isDropped h))))).map
        (fun out => out ++ Spec.viewLine (Spec.lastView (splitlines text))) := by
  have hnb : ∀ l ∈ (splitlines text).filter (fun h => !decide (Spec.isDropped h)), NB l :=
    fun l hl => splitlines_pieces text l (List.mem_filter.1 hl).1
  unfold cleanText
  rw [splitlines_unlines _ hnb, run_views St.init (splitlines text)]
  have hinit : St.init.setView none = St.init := rfl
  rw [hinit]
  -- the filtered lines contain no view line, hence leave no view
  have h2 := run_views St.init ((splitlines text).filter (fun h => !decide (Spec.isDropped h)))
  have hff : ((splitlines text).filter (fun h => !decide (Spec.isDropped h))).filter (fun h => !decide (Spec.isDropped h)) =
      (splitlines text).filter (fun h => !decide (Spec.isDropped h)) := by
    rw [List.filter_filter]; congr 1; funext x; simp
  have hlv : Spec.lastView ((splitlines text).filter (fun h => !decide (Spec.isDropped h))) = none := by
    unfold Spec.lastView
    have : ((splitlines text).filter (fun h => !decide (Spec.isDropped h))).filterMap Spec.viewValue = [] := by
      rw [List.filterMap_eq_nil_iff]
      intro x hx
      have := (List.mem_filter.1 hx).2
      simp only [Spec.viewValue]
      rw [if_neg]
      intro hh
      have hdx : Spec.isDropped x := ⟨hh.1, Or.inr (Or.inr hh.2)⟩
      simp [hdx] at this
    rw [this]; rfl
  rw [hinit, hff, hlv] at h2
  cases hx : run St.init ((splitlines text).filter (fun h => !decide (Spec.isDropped h))) with
  | error e => rfl
  | ok s =>
    rw [hx] at h2
    have hs : s.view = none := by
      injection h2 with h2
      rw [h2]; rfl
    simp only [Except.map]
    change Except.ok _ = Except.ok _
    congr 1
    simp only [assemble, St.setView, hs]
    cases Spec.lastView (splitlines text) with
    | none => simp [Spec.viewLine, St.init]
    | some v => simp [Spec.viewLine]

/-- Simple wrapping that never breaks a line, for the examples. -/
def noWrap (_ : Nat) (_ t : Str) : List Str := if t = [] then [] else [t]

theorem noWrap_ok : WrapOk noWrap := by
  refine ⟨?_, ?_, ?_⟩
  · intro w ind t; unfold noWrap; split <;> simp [*]
  · intro w ind t p ps hp; unfold noWrap at hp; split at hp
    · simp at hp
    · simp at hp; rw [← hp.1]; assumption
  · intro w ind t ht _; unfold noWrap; rw [if_neg ht]

example : cleanHeader noWrap ["A=1".toList, "VIEW= -vta".toList, "FORMAT=x".toList, "VIEW= -vtv".toList, "B=2".toList] =
    .ok ["A=1".toList, "B=2".toList, "VIEW= -vtv".toList] := by decide +kernel

/-! ## C14 -/

/-- C14. For every header that is accepted, every kept input line `h` (`pre` are the lines before it) is still there: a block
of consecutive result lines (one entry, wrapped into pieces, the pieces behind the first one prefixed with an indentation)
contains its normalised text, or the line itself, or - only for a continuation line, i.e. key `...` or the key of the
previous kept line - its value. A block consists of a single line unless the entry is longer than the header width. -/
theorem C14_nothing_lost (wrap : Nat → Str → Str → List Str) (hwr : WrapOk wrap) (w : Nat) (text : Str) (out : List Str)
    (hout : cleanText wrap w text = .ok out) (pre : List Str) (h : Str) (post : List Str)
    (hl : splitlines text = pre ++ h :: post) (hk : isKept h) :
    ∃ a b p ps ind, out = a ++ (p :: ps.map (ind ++ ·)) ++ b ∧ Leaves pre h ((p :: ps).flatten) ∧
      (ps = [] ∨ w < ((p :: ps).flatten).length) := by
  unfold cleanText at hout
  cases hr : run St.init (splitlines text) with
  | error e => rw [hr] at hout; cases hout
  | ok st =>
    rw [hr] at hout
    injection hout with hout
    obtain ⟨s, hs, hleaves⟩ := run_leaves _ st hr pre h post hl hk
    have hgood := all_run Good NB St.init wf_init (by simp [St.init]) _
      (fun l hl => lineOk_good l (splitlines_pieces text l hl)) trivial st hr
    obtain ⟨vl, hvl⟩ : ∃ vl, assemble wrap w st = ((cleanUp (-1) 0 st.files).map (wrapped wrap w)).flatten ++ vl :=
      ⟨_, assemble_eq wrap hwr w st hgood⟩
    rw [hvl] at hout
    obtain ⟨n, hn⟩ := cleanUp_strs st.files (-1) 0 s hs
    obtain ⟨l1, l2, hsplit⟩ := List.append_of_mem hn
    set i := List.replicate n '\t' ++ s with hi
    have hig := cleanUp_good st.files (-1) 0 hgood i hn
    have hinf : s <:+: i := ⟨List.replicate n '\t', [], by simp [hi]⟩
    have hjoin := hwr.join w (contIndent i) i
    cases hx : wrap w (contIndent i) i with
    | nil => rw [hx] at hjoin; exact absurd hjoin.symm hig.1
    | cons p ps =>
      refine ⟨(l1.map (wrapped wrap w)).flatten, (l2.map (wrapped wrap w)).flatten ++ vl, p, ps, contIndent i, ?_, ?_, ?_⟩
      · rw [← hout, hsplit]
        simp only [List.map_append, List.map_cons, List.flatten_append, List.flatten_cons]
        have : wrapped wrap w i = p :: ps.map (contIndent i ++ ·) := by unfold wrapped; rw [hx]
        rw [this]
        simp only [List.append_assoc]
      · rw [hx] at hjoin
        rw [hjoin]
        rcases hleaves with a | a | ⟨a, b⟩
        · exact Or.inl (a.trans hinf)
        · exact Or.inr (Or.inl (a.trans hinf))
        · exact Or.inr (Or.inr ⟨a, b.trans hinf⟩)
      · rw [hx] at hjoin
        by_cases hlen : i.length ≤ w
        · have := hwr.fits w (contIndent i) i hig.1 hlen
          rw [hx] at this
          left
          injection this
        · right; rw [hjoin]; omega

example : cleanHeader noWrap ["a.hdr:".toList, "\tA=1".toList, "\tB=2".toList, "b.hdr:".toList, "\tA=1".toList, "\tC=3".toList] =
    .ok ["A=1".toList, "a.hdr:".toList, "\tB=2".toList, "b.hdr:".toList, "\tC=3".toList] := by decide +kernel

/-! ## C15 -/

/-- C15 (negation). A header whose first line is a continuation raises IndexError. -/
theorem C15_not_always_accepted : cleanHeader noWrap ["...  x".toList] = .error .IndexError := by decide +kernel

/-- **C15**, the full claim: every header is accepted. -/
def C15_statement : Prop :=
  ∀ (wrap : Nat → Str → Str → List Str) (lines : List Str), ∃ out, cleanHeader wrap lines = .ok out

theorem C15_refuted : ¬ C15_statement := fun h => by
  obtain ⟨out, ho⟩ := h noWrap ["...  x".toList]
  rw [C15_not_always_accepted] at ho
  cases ho

theorem run_error (st : St) (hw : Wf st) (hv : [] ∉ st.vals) (lines : List Str) (e : PyErr) (h : run st lines = .error e) :
    e = .IndexError ∧ ∃ l ∈ lines, isKept l ∧ (keyVal (cleanLine l)).1 = "...".toList := by
  induction lines generalizing st with
  | nil => cases h
  | cons l ls ih =>
    simp only [run] at h
    cases hx : step st l with
    | error e' =>
      rw [hx] at h
      injection h with h
      subst h
      obtain ⟨a, b, c, -⟩ := (step_spec st hw hv l).1 e' hx
      exact ⟨a, l, by simp, b, c⟩
    | ok s =>
      rw [hx] at h
      obtain ⟨a, b, -⟩ := (step_spec st hw hv l).2 s hx
      obtain ⟨e1, l', hl', e2⟩ := ih s a b h
      exact ⟨e1, l', by simp [hl'], e2⟩

/-- C15 (partial). Every header without a continuation line (key `...`) is accepted, whatever its nesting, duplicates and
indentation. Missing: continuation lines; those can raise, and then only IndexError (`C15_only_index_error`). -/
theorem C15_accepted_partial (wrap : Nat → Str → Str → List Str) (w : Nat) (text : Str)
    (hno : ∀ l ∈ splitlines text, (keyVal (cleanLine l)).1 ≠ "...".toList) : ∃ out, cleanText wrap w text = .ok out := by
  unfold cleanText
  cases hr : run St.init (splitlines text) with
  | ok st => exact ⟨_, rfl⟩
  | error e =>
    obtain ⟨-, l, hl, -, hk⟩ := run_error St.init wf_init (by simp [St.init]) _ e hr
    exact absurd hk (hno l hl)

/-- C15. The only exception `clean_header` can raise is IndexError. -/
theorem C15_only_index_error (wrap : Nat → Str → Str → List Str) (w : Nat) (text : Str) (e : PyErr)
    (h : cleanText wrap w text = .error e) : e = .IndexError := by
  unfold cleanText at h
  cases hr : run St.init (splitlines text) with
  | ok st => rw [hr] at h; cases h
  | error e' =>
    rw [hr] at h
    injection h with h
    subst h
    exact (run_error St.init wf_init (by simp [St.init]) _ e' hr).1

example : ∀ l ∈ splitlines "a:\n\tA=1\n\tA=2\nb:\n".toList, (keyVal (cleanLine l)).1 ≠ "...".toList := by decide +kernel

/-! ## C16 -/

/-- The enclosing sections a line of depth `d` should have: those of smaller depth. -/
def Spec.enclosing (cs : List Nat) (d : Nat) : List Nat := cs.takeWhile (· < d)

theorem takeWhile_range (n d : Nat) : (List.range n).takeWhile (· < d) = List.range (min n d) := by
  induction n with
  | zero => simp
  | succ n ih =>
    rw [List.range_succ, List.takeWhile_append]
    rw [ih]
    by_cases h : n < d
    · rw [if_pos (by simp; omega)]
      have : min (n + 1) d = n + 1 := by omega
      rw [this, List.range_succ]
      simp [h]
    · have : min (n + 1) d = d := by omega
      have h2 : min n d = d := by omega
      rw [this, h2]
      split
      · rename_i hh
        have hdn : d = n := by simpa [h2] using hh
        subst hdn
        simp
      · rfl

theorem take_range (k n : Nat) : (List.range n).take k = List.range (min k n) := by
  apply List.ext_getElem
  · simp
  · intro i h1 h2; simp

/-- C16 (lines). With regularly indented open sections (depths 0, 1, ..., m) an entry of depth `d` is placed in the open section
of depth `d - 1`, for every `d`. -/
theorem C16_entries_partial (m d : Nat) : csLine (List.range (m + 1)) d = Spec.enclosing (List.range (m + 1)) d := by
  have hl : (List.range (m + 1)).getLast? = some m := by simp [List.range_succ]
  unfold csLine Spec.enclosing
  rw [hl, takeWhile_range]
  simp only
  split
  · unfold sliceTo
    rw [if_pos (by omega), take_range]
    congr 1
    simp; omega
  · congr 1; omega

/-- C16 (sections). With regularly indented open sections (depths 0, 1, ..., m) a section line of depth `d` gets the right
enclosing sections exactly when it is not shallower than the innermost open one, or `m = 2 d + 1`. -/
theorem C16_sections_iff (m d : Nat) :
    csSection (List.range (m + 1)) d = Spec.enclosing (List.range (m + 1)) d ↔ m ≤ d ∨ m = 2 * d + 1 := by
  have hl : (List.range (m + 1)).getLast? = some m := by simp [List.range_succ]
  unfold csSection Spec.enclosing
  rw [hl, takeWhile_range]
  simp only
  have inj : ∀ a b : Nat, List.range a = List.range b ↔ a = b := by
    intro a b; constructor
    · intro h; simpa using congrArg List.length h
    · rintro rfl; rfl
  split
  · rw [inj]; omega
  · unfold sliceTo
    split
    · rw [take_range, inj]; simp; omega
    · rw [take_range, inj]; omega

/-- **C16**, the full claim: the sections a section line ends up in are the open ones with smaller indentation. -/
def C16_statement : Prop :=
  ∀ (sections : List Nat) (d : Nat), sections.Pairwise (· < ·) → csSection sections d = Spec.enclosing sections d

theorem C16_refuted : ¬ C16_statement := fun h => by
  have := (C16_sections_iff 2 1).mp (h (List.range 3) 1 List.pairwise_lt_range)
  omega

/-- C16 (negation). `d` is a sibling of `b` in the input, but the cleaned header shows it nested inside `c`. -/
theorem C16_misnested : cleanHeader noWrap ["a:".toList, "\tb:".toList, "\t\tc:".toList, "\t\t\tr=1".toList, "\td:".toList, "\t\ts=1".toList]
    = .ok ["c:".toList, "\tr=1".toList, "\td:".toList, "\t\ts=1".toList] := by decide +kernel

/-! ## C12 -/

/-- The value of a header line if it is an entry with the given key. -/
def Spec.entryValue (lower : Str → Str) (key line : Str) : Option Str :=
  if isSectionText (strip line) = false ∧ lower (keyVal (strip line)).1 = key then some (strip (keyVal (strip line)).2) else none

/-- The value of the last entry with the given key, empty if there is none. -/
def Spec.lastValue (lower : Str → Str) (header : List Str) (key : Str) : Str :=
  ((header.filterMap (Spec.entryValue lower key)).getLast?).getD []

theorem itemsLoop_spec (lower : Str → Str) (items : List Str) (hn : items.Nodup) (header : List Str) (out : List Str)
    (ho : out.length = items.length) :
    (itemsLoop lower items out header).length = items.length ∧
    ∀ k (hk : k < items.length), (itemsLoop lower items out header)[k]? =
      some (((header.filterMap (Spec.entryValue lower items[k])).getLast?).getD (out[k]?.getD [])) := by
  induction header generalizing out with
  | nil =>
    refine ⟨ho, fun k hk => ?_⟩
    simp only [itemsLoop, List.filterMap_nil, List.getLast?_nil, Option.getD_none]
    rw [List.getElem?_eq_getElem (by omega)]; rfl
  | cons line ls ih =>
    simp only [itemsLoop]
    split
    · rename_i hs
      refine ⟨(ih out ho).1, fun k hk => ?_⟩
      rw [(ih out ho).2 k hk, List.filterMap_cons]
      have : Spec.entryValue lower items[k] line = none := by
        unfold Spec.entryValue; rw [if_neg (by simp [hs])]
      rw [this]
    · rename_i hs
      have hs' : isSectionText (strip line) = false := by simpa using hs
      split
      · rename_i hmem
        have ho' : (out.set (items.idxOf (lower (keyVal (strip line)).1)) (strip (keyVal (strip line)).2)).length = items.length := by simpa using ho
        refine ⟨(ih _ ho').1, fun k hk => ?_⟩
        rw [(ih _ ho').2 k hk, List.filterMap_cons]
        have hidx := List.idxOf_lt_length_of_mem hmem
        have hget : items[items.idxOf (lower (keyVal (strip line)).1)] = lower (keyVal (strip line)).1 := List.getElem_idxOf hidx
        by_cases hkk : items.idxOf (lower (keyVal (strip line)).1) = k
        · subst hkk
          have : Spec.entryValue lower items[items.idxOf (lower (keyVal (strip line)).1)] line = some (strip (keyVal (strip line)).2) := by
            unfold Spec.entryValue; rw [hget, if_pos ⟨hs', rfl⟩]
          rw [this]
          simp only [List.getLast?_cons]
          rw [List.getElem?_set_self (by omega)]
          cases (List.filterMap (Spec.entryValue lower items[items.idxOf (lower (keyVal (strip line)).1)]) ls).getLast? <;> rfl
        · have : Spec.entryValue lower items[k] line = none := by
            unfold Spec.entryValue; rw [if_neg]
            rintro ⟨-, he⟩
            apply hkk
            have := hn.idxOf_getElem k hk
            rw [← he] at this; exact this
          rw [this, List.getElem?_set_ne hkk]
      · rename_i hmem
        refine ⟨(ih out ho).1, fun k hk => ?_⟩
        rw [(ih out ho).2 k hk, List.filterMap_cons]
        have : Spec.entryValue lower items[k] line = none := by
          unfold Spec.entryValue; rw [if_neg]
          rintro ⟨-, he⟩
          exact hmem (by rw [he]; exact List.getElem_mem hk)
        rw [this]

/-- C12 (partial). `header_items` returns, for every requested key (pairwise different ignoring case), the value of the last entry
with that key of the *cleaned* header, or the empty text. Missing: the claim about the header as given is false, see
`C12_format_never_found`. -/
theorem C12_last_value_partial (wrap : Nat → Str → Str → List Str) (lower : Str → Str) (lines items out : List Str)
    (hn : (items.map lower).Nodup) (h : headerItems wrap lower lines items = .ok out) :
    ∃ header, cleanText wrap 4096 (joinWith '\n' lines) = .ok header ∧
      out = items.map (fun it => Spec.lastValue lower header (lower it)) := by
  unfold headerItems at h
  cases hc : cleanText wrap 4096 (joinWith '\n' lines) with
  | error e => rw [hc] at h; cases h
  | ok header =>
    rw [hc] at h
    injection h with h
    refine ⟨header, rfl, ?_⟩
    obtain ⟨h1, h2⟩ := itemsLoop_spec lower (items.map lower) hn header (List.replicate (items.map lower).length []) (by simp)
    rw [← h]
    apply List.ext_getElem?
    intro k
    by_cases hk : k < items.length
    · rw [h2 k (by simpa using hk)]
      simp [hk, Spec.lastValue]
    · rw [List.getElem?_eq_none (by rw [h1]; simpa using hk), List.getElem?_eq_none (by simpa using hk)]

/-- C12 (negation). The format of a picture can not be looked up: the line is removed before the search. -/
theorem C12_format_never_found :
    headerItems noWrap (fun s => s.map Char.toLower) ["FORMAT=32-bit_rle_rgbe".toList] ["FORMAT".toList] = .ok [[]] := by
  decide +kernel

/-- **C12**, the full claim: the value of the last line of the header as given. -/
def C12_statement : Prop :=
  ∀ (wrap : Nat → Str → Str → List Str) (lower : Str → Str) (lines items out : List Str), (items.map lower).Nodup →
    headerItems wrap lower lines items = .ok out → out = items.map (fun it => Spec.lastValue lower lines (lower it))

theorem C12_refuted : ¬ C12_statement := fun h => by
  have := h noWrap (fun s => s.map Char.toLower) ["FORMAT=32-bit_rle_rgbe".toList] ["FORMAT".toList] _ (by decide)
    C12_format_never_found
  revert this
  decide +kernel

/-- C12 (negation). Two consecutive lines with the same key are joined, so the last value is not returned. -/
theorem C12_consecutive_lines_joined :
    headerItems noWrap (fun s => s.map Char.toLower) ["EXPOSURE=2".toList, "EXPOSURE=3".toList] ["exposure".toList]
      = .ok ["2 3".toList] := by
  decide +kernel

example : headerItems noWrap (fun s => s.map Char.toLower)
    ["SOFT=a".toList, "VIEW= -vta -vh 180".toList, "x.hdr:".toList, "\tEXPOSURE=2".toList, "\tEXPO=1".toList, "\tEXPOSURE=3".toList]
    ["view".toList, "Exposure".toList, "none".toList] = .ok ["-vta -vh 180".toList, "3".toList, []] := by decide +kernel

end Verif.Header
