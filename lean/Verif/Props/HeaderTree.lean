import Verif.Lemmas.HeaderTree
/-! # Headers laid out as trees of sections: C12, C16 and C129 for them -/
namespace Verif.Header
open Verif.Py Forest Spec

/-- no entry is longer than a header line may be -/
def Short (w : Nat) (T : Forest) : Prop := ∀ l ∈ render 0 T, l.length ≤ w

theorem wrapped_short (wrap : Nat → Str → Str → List Str) (hwr : WrapOk wrap) (w : Nat) (ls : List Str)
    (h : ∀ l ∈ ls, l ≠ [] ∧ l.length ≤ w) : (ls.map (wrapped wrap w)).flatten = ls := by
  induction ls with
  | nil => rfl
  | cons l ls ih =>
    simp only [List.map_cons, List.flatten_cons]
    rw [ih fun x hx => h x (by simp [hx])]
    have := h l (by simp)
    unfold wrapped
    rw [hwr.fits w _ l this.1 this.2]
    rfl

theorem assemble_tree (wrap : Nat → Str → Str → List Str) (hwr : WrapOk wrap) (w : Nat) (T : Forest) (h : TreeOk T)
    (ht : Tidy T) (hs : Short w T) (v : Option Str) (vals : List Str) (cs : List Nat) (lk : Str) :
    assemble wrap w ⟨T, v, vals, cs, lk⟩ = render 0 T ++ viewLine v := by
  have hg : all Good NB T := all_mono (fun s hs => hs.good) (fun n hn => hn.nb) T h.lines
  rw [assemble_eq wrap hwr w _ hg]
  have hc := cleanUp_render T 0 h.reg ht
  simp only [Nat.cast_zero, Int.zero_sub] at hc
  simp only [hc]
  rw [wrapped_short wrap hwr w _ fun l hl => ⟨(render_good T h.lines l hl).1, hs l hl⟩]
  cases v <;> rfl

/-- What `clean_header` and `header_items` make of a header that is a tree of sections with VIEW, FORMAT and pvalue lines
anywhere in between: the tree, then the last view. -/
theorem cleanText_tree (wrap : Nat → Str → Str → List Str) (hwr : WrapOk wrap) (w : Nat) (text : Str) (T : Forest)
    (h : TreeOk T) (ht : Tidy T) (hs : Short w T)
    (hl : (splitlines text).filter (fun l => !decide (isDropped l)) = render 0 T) :
    cleanText wrap w text = .ok (render 0 T ++ viewLine (lastView (splitlines text))) := by
  rw [C13_only_last_view, hl]
  obtain ⟨lk, hr⟩ := run_tree T h
  unfold cleanText
  rw [splitlines_unlines _ fun l hl => (render_good T h.lines l hl).2, hr]
  change Except.map _ (Except.ok _) = _
  rw [assemble_tree wrap hwr w T h ht hs]
  simp [Except.map, viewLine]

/-- **C16** on headers without repetitions: every section and every entry stays where it is, as long as no section follows one
that ends in a section. -/
theorem C16_tree_partial (wrap : Nat → Str → Str → List Str) (hwr : WrapOk wrap) (lines : List Str) (T : Forest)
    (h : TreeOk T) (ht : Tidy T) (hs : Short 150 T) (hne : ∀ l ∈ lines, l ≠ [] ∧ NB l)
    (hl : lines.filter (fun l => !decide (isDropped l)) = render 0 T) :
    cleanHeader wrap lines = .ok (render 0 T ++ viewLine (lastView lines)) := by
  unfold cleanHeader
  have := cleanText_tree wrap hwr 150 (joinWith '\n' lines) T h ht hs (by rw [splitlines_join lines hne]; exact hl)
  rwa [splitlines_join lines hne] at this

/-! ## C129 -/

/-- **C129**, the full claim: cleaning a cleaned header changes nothing. -/
def C129_statement : Prop :=
  ∀ (wrap : Nat → Str → Str → List Str), WrapOk wrap → ∀ lines out : List Str, cleanHeader wrap lines = .ok out →
    cleanHeader wrap out = .ok out

/-- The claim is false: `pcomb`, `pcomb -x`, `pcomb` under one title are joined with blanks at the end, which the next
cleaning removes. -/
theorem C129_refuted : ¬ C129_statement := by
  intro h
  have h1 : cleanHeader noWrap ["a:".toList, "\tpcomb".toList, "\tpcomb -x".toList, "\tpcomb".toList] =
    .ok ["a:".toList, "\tpcomb  -x ".toList] := by decide +kernel
  have h2 := h noWrap noWrap_ok _ _ h1
  revert h2
  decide +kernel

/-- the text of a view line -/
structure ViewText (v : Str) : Prop where
  nb : NB v
  clean : cleanLine ("VIEW=".toList ++ v) = "VIEW=".toList ++ v
  entry : isSectionText ("VIEW=".toList ++ v) = false

theorem view_keyVal (v : Str) : keyVal ("VIEW=".toList ++ v) = ("VIEW".toList, v) :=
  keyVal_equals "VIEW".toList v (by decide)

theorem view_value {v : Str} (hv : ViewText v) : viewValue ("VIEW=".toList ++ v) = some v := by
  unfold viewValue
  rw [hv.clean, view_keyVal, if_pos ⟨hv.entry, rfl⟩]

theorem view_dropped {v : Str} (hv : ViewText v) : isDropped ("VIEW=".toList ++ v) := by
  unfold isDropped
  rw [hv.clean, view_keyVal]
  exact ⟨hv.entry, Or.inr (Or.inr rfl)⟩

theorem render_kept (T : Forest) (h : all Canon Title T) : ∀ l ∈ render 0 T, ¬ isDropped l := by
  intro l hl
  obtain ⟨j, t, rfl, h2⟩ := render_mem T 0 l hl
  unfold isDropped
  rw [cleanLine_tabs]
  rcases h2 with h2 | ⟨n, rfl, h3⟩
  · have hc := all_strs _ _ T h t h2
    rw [hc.clean]
    have := hc.key
    simp only [List.mem_cons, List.not_mem_nil, or_false, not_or] at this
    rintro ⟨-, hh⟩
    tauto
  · have hn := h3 _ _ h
    rw [hn.clean, hn.isSection]
    simp

theorem render_viewValue (T : Forest) (h : all Canon Title T) : (render 0 T).filterMap viewValue = [] := by
  rw [List.filterMap_eq_nil_iff]
  intro l hl
  have := render_kept T h l hl
  unfold viewValue
  rw [if_neg fun hh => this ⟨hh.1, Or.inr (Or.inr hh.2)⟩]

theorem tree_input (T : Forest) (h : TreeOk T) (v : Option Str) (hv : ∀ x ∈ v, ViewText x) :
    (∀ l ∈ render 0 T ++ viewLine v, l ≠ [] ∧ NB l) ∧
      (render 0 T ++ viewLine v).filter (fun l => !decide (isDropped l)) = render 0 T ∧
      lastView (render 0 T ++ viewLine v) = v := by
  have h1 : (render 0 T).filter (fun l => !decide (isDropped l)) = render 0 T :=
    List.filter_eq_self.2 fun l hl => by simp [render_kept T h.lines l hl]
  have h2 := render_viewValue T h.lines
  cases v with
  | none =>
    simp only [viewLine, List.append_nil]
    exact ⟨render_good T h.lines, h1, by unfold lastView; rw [h2]; rfl⟩
  | some x =>
    have hx := hv x rfl
    refine ⟨?_, ?_, ?_⟩
    · intro l hl
      rcases List.mem_append.1 hl with hl | hl
      · exact render_good T h.lines l hl
      · rw [show l = "VIEW=".toList ++ x from List.mem_singleton.1 hl]
        exact ⟨by simp, NB.append (by intro c hc; revert c; decide) hx.nb⟩
    · rw [List.filter_append, h1]
      simp only [viewLine, List.filter_cons, view_dropped hx, decide_true, Bool.not_true, Bool.false_eq_true, if_false,
        List.filter_nil, List.append_nil]
    · unfold lastView
      rw [List.filterMap_append, h2]
      simp only [viewLine, List.filterMap_cons, view_value hx, List.filterMap_nil, List.nil_append, List.getLast?_singleton]

/-- **C129** for headers laid out as a tree without repetitions and with short lines, view last: cleaning leaves them alone. The
result of cleaning such a header with VIEW, FORMAT and pvalue lines anywhere in between (`C16_tree_partial`) is of this form.
Missing: everything else, see `C129_refuted`. -/
theorem C129_partial (wrap : Nat → Str → Str → List Str) (hwr : WrapOk wrap) (T : Forest) (h : TreeOk T) (ht : Tidy T)
    (hs : Short 150 T) (v : Option Str) (hv : ∀ x ∈ v, ViewText x) :
    cleanHeader wrap (render 0 T ++ viewLine v) = .ok (render 0 T ++ viewLine v) := by
  obtain ⟨h1, h2, h3⟩ := tree_input T h v hv
  rw [C16_tree_partial wrap hwr _ T h ht hs h1 h2, h3]

/-! ## C12 -/

theorem entryValue_dropped (lower : Str → Str) (key l : Str) (hd : isDropped l) (h_ : '_' ∉ l)
    (hk : key ∉ ["pvalue".toList, "FORMAT".toList, "VIEW".toList].map lower) : entryValue lower key l = none := by
  unfold isDropped at hd
  have hc : cleanLine l = strip l := by
    unfold cleanLine
    rw [Conv.subClasp_id _ _ (fun h => h_ (strip_mem l _ h)) (by simp)]
    rfl
  rw [hc] at hd
  unfold entryValue
  rw [if_neg]
  rintro ⟨-, rfl⟩
  apply hk
  obtain ⟨-, hd | hd | hd⟩ := hd <;> rw [hd] <;> simp

theorem filterMap_dropped (lower : Str → Str) (key : Str) (lines : List Str) (h_ : ∀ l ∈ lines, isDropped l → '_' ∉ l)
    (hk : key ∉ ["pvalue".toList, "FORMAT".toList, "VIEW".toList].map lower) :
    lines.filterMap (entryValue lower key) =
      (lines.filter fun l => !decide (isDropped l)).filterMap (entryValue lower key) := by
  induction lines with
  | nil => rfl
  | cons l ls ih =>
    have ih := ih fun x hx => h_ x (by simp [hx])
    by_cases hd : isDropped l
    · rw [List.filterMap_cons, entryValue_dropped lower key l hd (h_ l (by simp) hd) hk]
      simp only [List.filter_cons, hd, decide_true, Bool.not_true, Bool.false_eq_true, if_false]
      exact ih
    · simp only [List.filter_cons, hd, decide_false, Bool.not_false, if_true, List.filterMap_cons, ih]

theorem strip_view (v : Str) : strip ("VIEW=".toList ++ v) = "VIEW=".toList ++ rstrip v := by
  have h1 : lstrip ("VIEW=".toList ++ v) = "VIEW=".toList ++ v := rfl
  unfold strip
  rw [h1]
  unfold rstrip
  rw [List.reverse_append, List.dropWhile_append]
  by_cases h : (v.reverse.dropWhile isSpace).isEmpty = true
  · rw [if_pos h, List.isEmpty_iff.1 h]
    rfl
  · rw [if_neg h, List.reverse_append, List.reverse_reverse]

theorem entryValue_view (lower : Str → Str) (key v : Str) (hk : key ≠ lower "VIEW".toList) :
    entryValue lower key ("VIEW=".toList ++ v) = none := by
  unfold entryValue
  rw [strip_view, view_keyVal, if_neg]
  rintro ⟨-, h⟩
  exact hk h.symm

/-- **C12** for the header as given: in a header laid out as a tree without repetitions (VIEW, FORMAT and pvalue lines may stand
anywhere in between), `header_items` finds the last value of every key other than those three. -/
theorem C12_tree_partial (wrap : Nat → Str → Str → List Str) (hwr : WrapOk wrap) (lower : Str → Str) (lines items : List Str)
    (hn : (items.map lower).Nodup) (T : Forest) (h : TreeOk T) (ht : Tidy T) (hs : Short 4096 T)
    (hne : ∀ l ∈ lines, l ≠ [] ∧ NB l) (h_ : ∀ l ∈ lines, isDropped l → '_' ∉ l)
    (hl : lines.filter (fun l => !decide (isDropped l)) = render 0 T)
    (hk : ∀ it ∈ items, lower it ∉ ["pvalue".toList, "FORMAT".toList, "VIEW".toList].map lower) :
    headerItems wrap lower lines items = .ok (items.map fun it => lastValue lower lines (lower it)) := by
  have hc := cleanText_tree wrap hwr 4096 (joinWith '\n' lines) T h ht hs (by rw [splitlines_join lines hne]; exact hl)
  cases hi : headerItems wrap lower lines items with
  | error e =>
    unfold headerItems at hi
    rw [hc] at hi
    cases hi
  | ok out =>
    obtain ⟨header, h1, rfl⟩ := C12_last_value_partial wrap lower lines items out hn hi
    rw [hc] at h1
    injection h1 with h1
    congr 1
    refine List.map_congr_left fun it hit => ?_
    have hkk := hk it hit
    unfold lastValue
    rw [filterMap_dropped lower (lower it) lines h_ hkk, hl, ← h1, List.filterMap_append]
    have : (viewLine (lastView (splitlines (joinWith '\n' lines)))).filterMap (entryValue lower (lower it)) = [] := by
      cases lastView (splitlines (joinWith '\n' lines)) with
      | none => rfl
      | some v =>
        simp only [viewLine, List.filterMap_cons, List.filterMap_nil]
        rw [entryValue_view lower _ v (by
          intro hh
          apply hkk
          rw [hh]
          simp)]
    rw [this, List.append_nil]

/-- **C12** for the view: whatever the header, the value found for `VIEW` is that of its last VIEW line. -/
theorem C12_view (wrap : Nat → Str → Str → List Str) (lower : Str → Str) (lines items out : List Str)
    (hn : (items.map lower).Nodup) (h : headerItems wrap lower lines items = .ok out) (it : Str) (k : Nat)
    (hk : items[k]? = some it) (hit : lower it = lower "VIEW".toList) (v : Str)
    (hv : lastView (splitlines (joinWith '\n' lines)) = some v) (hs : isSectionText ("VIEW=".toList ++ rstrip v) = false) :
    out[k]? = some (strip (rstrip v)) := by
  obtain ⟨header, h1, rfl⟩ := C12_last_value_partial wrap lower lines items out hn h
  rw [C13_only_last_view, hv] at h1
  obtain ⟨pre, hpre⟩ : ∃ pre, header = pre ++ ["VIEW=".toList ++ v] := by
    cases hx : cleanText wrap 4096 (unlines ((splitlines (joinWith '\n' lines)).filter (fun h => !decide (isDropped h)))) with
    | error e => rw [hx] at h1; cases h1
    | ok o =>
      rw [hx] at h1
      injection h1 with h1
      exact ⟨o, h1.symm⟩
  rw [List.getElem?_map, hk, Option.map_some]
  congr 1
  unfold lastValue
  rw [hpre, List.filterMap_append]
  have : entryValue lower (lower it) ("VIEW=".toList ++ v) = some (strip (rstrip v)) := by
    unfold entryValue
    rw [strip_view, view_keyVal, if_pos ⟨hs, hit.symm⟩]
  simp only [List.filterMap_cons, this, List.filterMap_nil, List.getLast?_append, List.getLast?_singleton, Option.some_or,
    Option.getD_some]

/-! A header with two pictures, and what the hypotheses say about it -/

/-- `out.hdr:` with the sections `a.hdr:` and `b.hdr:` and a command of its own -/
def demo : Forest :=
  .sec "out.hdr".toList 0
    (.sec "a.hdr".toList 1 (.str "rpict -vta a.oct".toList (.str "EXPOSURE=2".toList .nil))
      (.sec "b.hdr".toList 1 (.str "EXPOSURE=3".toList .nil) (.str "pcomb a.hdr b.hdr".toList .nil))) .nil

theorem demo_canon : ∀ s ∈ ["rpict -vta a.oct".toList, "EXPOSURE=2".toList, "EXPOSURE=3".toList, "pcomb a.hdr b.hdr".toList],
    Canon s := by
  intro s hs
  simp only [List.mem_cons, List.not_mem_nil, or_false] at hs
  rcases hs with rfl | rfl | rfl | rfl
  all_goals exact ⟨by intro c hc; revert c; decide +kernel, ⟨_, _, rfl, by decide⟩, by decide +kernel, by decide +kernel,
    by decide +kernel, by decide +kernel⟩

theorem demo_title : ∀ n ∈ ["out.hdr".toList, "a.hdr".toList, "b.hdr".toList], Title n := by
  intro s hs
  simp only [List.mem_cons, List.not_mem_nil, or_false] at hs
  rcases hs with rfl | rfl | rfl
  all_goals exact ⟨by intro c hc; revert c; decide +kernel, ⟨_, _, rfl, by decide⟩, by decide +kernel, by decide +kernel⟩

theorem demo_ok : TreeOk demo where
  reg := by simp [demo, Reg]
  lines := by
    have hc := demo_canon
    have hn := demo_title
    exact ⟨hn _ (by simp), ⟨hn _ (by simp), ⟨hc _ (by simp), hc _ (by simp), trivial⟩, hn _ (by simp), ⟨hc _ (by simp), trivial⟩,
      hc _ (by simp), trivial⟩, trivial⟩
  secs := by simp [demo, SecOk, openLen]
  keys := by
    refine ⟨⟨⟨by decide +kernel, by decide +kernel, trivial⟩, ⟨by decide +kernel, trivial⟩, by decide +kernel, trivial⟩, trivial⟩
  nodup := by decide +kernel

theorem demo_tidy : Tidy demo := by simp [demo, Tidy, allSec]

theorem demo_short : Short 150 demo := by unfold Short; decide +kernel

example : cleanHeader noWrap (render 0 demo ++ viewLine (some " -vta -vh 180".toList)) =
    .ok ["out.hdr:".toList, "\ta.hdr:".toList, "\t\trpict -vta a.oct".toList, "\t\tEXPOSURE=2".toList, "\tb.hdr:".toList,
      "\t\tEXPOSURE=3".toList, "\tpcomb a.hdr b.hdr".toList, "VIEW= -vta -vh 180".toList] :=
  C129_partial noWrap noWrap_ok demo demo_ok demo_tidy demo_short _ (by
    intro x hx
    rw [← Option.some.inj hx]
    exact ⟨by intro c hc; revert c; decide +kernel, by decide +kernel, by decide +kernel⟩)

example : headerItems noWrap (fun s => s.map Char.toLower) (render 0 demo) ["Exposure".toList] = .ok ["3".toList] := by
  have := C12_tree_partial noWrap noWrap_ok (fun s => s.map Char.toLower) (render 0 demo) ["Exposure".toList] (by decide +kernel)
    demo demo_ok demo_tidy (fun l hl => (demo_short l hl).trans (by norm_num)) (render_good demo demo_ok.lines)
    (fun l hl hd => absurd hd (render_kept demo demo_ok.lines l hl))
    (List.filter_eq_self.2 fun l hl => by simp [render_kept demo demo_ok.lines l hl]) (by decide +kernel)
  rw [this]
  decide +kernel

end Verif.Header
