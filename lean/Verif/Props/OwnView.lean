import Verif.Spec.OwnView
import Verif.Props.ViewHeader
import Verif.Model.Convert

/-! C192: which of the views in a header is used. -/

namespace Verif.ViewHdr
open Verif.Py Verif.Geo Verif.Map Verif.Header Verif.Conv Verif.Spec

/-! ### occurrences and lines -/

theorem prefix_line {pat : Str} (hn : '\n' ∉ pat) (x b : Str) :
    pat.isPrefixOf (x ++ '\n' :: b) = pat.isPrefixOf x := by
  induction pat generalizing x with
  | nil => simp
  | cons p pat ih =>
    have hp : p ≠ '\n' := fun e => hn (e ▸ List.mem_cons_self)
    have ht : '\n' ∉ pat := fun e => hn (List.mem_cons_of_mem _ e)
    cases x with
    | nil => show (p == '\n' && _) = false; simp [hp]
    | cons c x => show (p == c && pat.isPrefixOf (x ++ '\n' :: b)) = (p == c && pat.isPrefixOf x); rw [ih ht x]

/-- the last occurrence of a text without newlines is the last one of the last line that has one -/
theorem afterLast_line {pat : Str} (h0 : pat ≠ []) (hn : '\n' ∉ pat) (a b : Str) :
    afterLast pat (a ++ '\n' :: b) =
      match afterLast pat b with
      | some u => some u
      | none => (afterLast pat a).map (· ++ '\n' :: b) := by
  have he : pat.isEmpty = false := by cases pat <;> simp_all
  induction a with
  | nil =>
    have := prefix_line hn [] b
    rw [List.nil_append] at this ⊢
    have h1 : pat.isPrefixOf [] = false := by cases pat <;> simp_all
    have h2 : afterLast pat [] = none := by simp [afterLast, he]
    rw [h2, show afterLast pat ('\n' :: b) = match afterLast pat b with
      | some t => some t
      | none => if pat.isPrefixOf ('\n' :: b) then some (('\n' :: b).drop pat.length) else none from rfl, this, h1]
    cases afterLast pat b <;> rfl
  | cons c a ih =>
    rw [List.cons_append, afterLast, ih]
    cases afterLast pat b with
    | some u => rfl
    | none =>
      simp only
      rw [afterLast]
      cases afterLast pat a with
      | some u => rfl
      | none =>
        simp only [Option.map_none]
        have hp := prefix_line hn (c :: a) b
        rw [List.cons_append] at hp
        rw [hp]
        by_cases h : pat.isPrefixOf (c :: a) = true
        · rw [if_pos h, if_pos h, Option.map_some, ← List.cons_append,
            List.drop_append_of_le_length (List.IsPrefix.length_le (List.isPrefixOf_iff_prefix.mp h))]
        · rw [if_neg h, if_neg h]; rfl

theorem afterLast_tail {pat : Str} : ∀ {s t : Str}, afterLast pat s = some t → ∃ a, s = a ++ t
  | [], t, h => by
    rw [afterLast] at h
    split at h
    · exact ⟨[], by simpa using (Option.some.inj h)⟩
    · exact absurd h (by simp)
  | c :: cs, t, h => by
    rw [afterLast] at h
    cases hc : afterLast pat cs with
    | some u =>
      rw [hc] at h
      obtain ⟨a, ha⟩ := afterLast_tail hc
      exact ⟨c :: a, by rw [← Option.some.inj h, List.cons_append, ← ha]⟩
    | none =>
      rw [hc] at h
      simp only at h
      split at h
      · exact ⟨(c :: cs).take pat.length, by rw [← Option.some.inj h, List.take_append_drop]⟩
      · exact absurd h (by simp)

/-- what `getinfo` prints behind the path -/
def body (lines : List Str) : Str := '\t' :: lines.flatMap (· ++ "\n\t".toList)

theorem body_cons (l : Str) (lines : List Str) : body (l :: lines) = ('\t' :: l) ++ '\n' :: body lines := by
  simp [body]

theorem body_append (pre : List Str) (l : Str) (post : List Str) :
    ∃ a, body (pre ++ l :: post) = a ++ body (l :: post) := by
  induction pre with
  | nil => exact ⟨[], rfl⟩
  | cons p pre ih =>
    obtain ⟨a, ha⟩ := ih
    exact ⟨('\t' :: p) ++ '\n' :: a, by rw [List.cons_append, body_cons, ha]; simp⟩

theorem getinfoText_body (path : Str) (lines : List Str) : getinfoText path lines = (path ++ [':']) ++ '\n' :: body lines := by
  simp [getinfoText, body]

variable {pat : Str}

theorem tab_skip (h0 : pat ≠ []) (hp : '\t' ∉ pat) (s : Str) : afterLast pat ('\t' :: s) = afterLast pat s := by
  cases pat with
  | nil => exact absurd rfl h0
  | cons p pat => exact afterLast_skip ['\t'] s (by simpa using fun e : p = '\t' => hp (e ▸ List.mem_cons_self))

theorem body_none (h0 : pat ≠ []) (hp : '\t' ∉ pat) (hn : '\n' ∉ pat) (lines : List Str)
    (h : ∀ x ∈ lines, afterLast pat x = none) : afterLast pat (body lines) = none := by
  induction lines with
  | nil => show afterLast pat ['\t'] = none; rw [tab_skip h0 hp]; cases pat <;> simp_all [afterLast]
  | cons l lines ih =>
    rw [body_cons, afterLast_line h0 hn, ih fun x hx => h x (by simp [hx]), tab_skip h0 hp, h l (by simp)]
    rfl

theorem body_hit (h0 : pat ≠ []) (hp : '\t' ∉ pat) (hn : '\n' ∉ pat) (pre : List Str) (l : Str) (post : List Str) (t : Str)
    (hl : afterLast pat l = some t) (h : ∀ x ∈ post, afterLast pat x = none) :
    afterLast pat (body (pre ++ l :: post)) = some (t ++ '\n' :: body post) := by
  obtain ⟨a, ha⟩ := body_append pre l post
  rw [ha]
  apply afterLast_pre
  rw [body_cons, afterLast_line h0 hn, body_none h0 hp hn post h, tab_skip h0 hp, hl]
  rfl

theorem text_hit (path : Str) (h0 : pat ≠ []) (hp : '\t' ∉ pat) (hn : '\n' ∉ pat) (pre : List Str) (l : Str) (post : List Str) (t : Str)
    (hl : afterLast pat l = some t) (h : ∀ x ∈ post, afterLast pat x = none) :
    afterLast pat (getinfoText path (pre ++ l :: post)) = some (t ++ '\n' :: body post) := by
  rw [getinfoText_body, afterLast_line h0 hn, body_hit h0 hp hn pre l post t hl h]

theorem text_none (path : Str) (h0 : pat ≠ []) (hp : '\t' ∉ pat) (hn : '\n' ∉ pat) (lines : List Str)
    (hpath : afterLast pat (path ++ [':']) = none) (h : ∀ x ∈ lines, afterLast pat x = none) :
    afterLast pat (getinfoText path lines) = none := by
  rw [getinfoText_body, afterLast_line h0 hn, body_none h0 hp hn lines h, hpath]
  rfl

theorem firstTokens_line (t post : Str) (h : ∀ c ∈ t, isLineBreak c = false) :
    firstTokens (t ++ '\n' :: post) = .ok (tokens t) := by
  obtain ⟨r, hr⟩ := splitlines_go_line t post [] h
  unfold firstTokens splitlines
  rw [hr]
  rfl

/-! ### C192 -/

/-- the marker of a view line, and the one of a `rvu` command line -/
abbrev viewMark : Str := "VIEW= -vta".toList
abbrev rvuMark : Str := "rvu -vta".toList

/-- header lines are lines: no line break of any kind in them -/
def Lines (lines : List Str) : Prop := ∀ l ∈ lines, ∀ c ∈ l, isLineBreak c = false

/-- **C192** the words used are those behind the last occurrence of the marker in the last line that has one, wherever in
the line it stands and whatever the lines behind are; a `rvu` command line is used when there is no such line, and neither
gives no view -/
theorem C192_exact (path : Str) (pre : List Str) (l : Str) (post : List Str) (hb : Lines (pre ++ l :: post)) :
    (∀ t, afterLast viewMark l = some t → (∀ x ∈ post, afterLast viewMark x = none) →
      viewTokens (getinfoText path (pre ++ l :: post)) = .ok (some (tokens t))) ∧
    (∀ t, afterLast viewMark (path ++ [':']) = none → (∀ x ∈ pre ++ l :: post, afterLast viewMark x = none) →
      afterLast rvuMark l = some t → (∀ x ∈ post, afterLast rvuMark x = none) →
      viewTokens (getinfoText path (pre ++ l :: post)) = .ok (some (tokens t))) := by
  have key : ∀ (m : Str) (t : Str), afterLast m l = some t → ∀ r, firstTokens (t ++ '\n' :: r) = .ok (tokens t) := by
    intro m t ht r
    obtain ⟨a, ha⟩ := afterLast_tail ht
    exact firstTokens_line t r fun c hc => hb l (by simp) c (by rw [ha]; exact List.mem_append_right _ hc)
  refine ⟨fun t hl h => ?_, fun t hpath hnone hl h => ?_⟩
  · unfold viewTokens
    rw [text_hit path (by decide) (by decide) (by decide) pre l post t hl h]
    simp only [key _ t hl]
    rfl
  · unfold viewTokens
    rw [text_none path (by decide) (by decide) (by decide) _ hpath hnone, text_hit path (by decide) (by decide) (by decide) pre l post t hl h]
    simp only [key _ t hl]
    rfl

/-- neither the path nor a line has either marker: no view -/
theorem C192_none (path : Str) (lines : List Str)
    (hp : afterLast viewMark (path ++ [':']) = none ∧ afterLast rvuMark (path ++ [':']) = none)
    (h : ∀ x ∈ lines, afterLast viewMark x = none ∧ afterLast rvuMark x = none) :
    viewTokens (getinfoText path lines) = .ok none := by
  unfold viewTokens
  rw [text_none path (by decide) (by decide) (by decide) _ hp.1 fun x hx => (h x hx).1,
    text_none path (by decide) (by decide) (by decide) _ hp.2 fun x hx => (h x hx).2]

/-- the mapper made of the words of a view, if there are any -/
noncomputable def made {α : Type} (io : NumIO α) (size : Except PyErr (ℤ × ℤ)) : Option (List Str) → Except PyErr (Option (View × V3))
  | none => .ok none
  | some vp => (readView io vp size).map some

/-- what is expected of an image: the mapper of its own view when that is an angular one, no mapper otherwise -/
noncomputable def expected {α : Type} (io : NumIO α) (lines : List Str) (size : Except PyErr (ℤ × ℤ)) :
    Except PyErr (Option (View × V3)) :=
  made io size ((ownView lines).bind angularWords)

/-- the text `getinfo` prints has no complaint and no view in the path or a `rvu` command -/
structure Quiet (path : Str) (lines : List Str) : Prop where
  opn : afterLast "cannot open".toList (getinfoText path lines) = none
  path : afterLast viewMark (path ++ [':']) = none ∧ afterLast rvuMark (path ++ [':']) = none
  rvu : ∀ x ∈ lines, afterLast rvuMark x = none

/-- **C192**, the full claim: the mapper of an image has the view of the image -/
def C192_statement : Prop :=
  ∀ {α : Type} (io : NumIO α) (pint : Str → Option ℤ) (path dims : Str) (lines : List Str), Lines lines → Quiet path lines →
    hdr2vm io pint (getinfoText path lines) [] dims = expected io lines (imgSize pint dims)

theorem hdr2vm_of {α : Type} (io : NumIO α) (pint : Str → Option ℤ) (path dims : Str) (lines : List Str) (q : Quiet path lines)
    {r : Option (List Str)} (h : viewTokens (getinfoText path lines) = .ok r) :
    hdr2vm io pint (getinfoText path lines) [] dims = made io (imgSize pint dims) r := by
  unfold hdr2vm
  rw [q.opn, h]
  have : afterLast "bad header!".toList [] = none := by decide
  rw [this]
  cases r with
  | none => rfl
  | some vp =>
    simp only [Option.isSome_none, Bool.false_eq_true, if_false]
    show (readView io vp (imgSize pint dims)).bind (fun a => Except.ok (some a)) = (readView io vp (imgSize pint dims)).map some
    cases readView io vp (imgSize pint dims) <;> rfl

theorem ownView_last (pre : List Str) (l : Str) (post : List Str) (hl : "VIEW=".toList.isPrefixOf l = true)
    (hpost : ∀ x ∈ post, "VIEW=".toList.isPrefixOf x = false) : ownView (pre ++ l :: post) = some l := by
  unfold ownView
  have : (l :: post).filter (fun l => "VIEW=".toList.isPrefixOf l) = [l] := by
    rw [List.filter_cons, if_pos hl, List.filter_eq_nil_iff.mpr fun x hx => by rw [hpost x hx]; exact Bool.false_ne_true]
  rw [List.filter_append, this]
  simp

/-- **C192** holds when the marker stands at the beginning of the last view line and nowhere behind, and when it is in no
line. Missing: headers with an older angular view or with views of other pictures. -/
theorem C192_partial {α : Type} (io : NumIO α) (pint : Str → Option ℤ) (path dims : Str) :
    (∀ (pre : List Str) (t : Str) (post : List Str), Lines (pre ++ (viewMark ++ t) :: post) →
      Quiet path (pre ++ (viewMark ++ t) :: post) → afterLast viewMark t = none →
      (∀ x ∈ post, afterLast viewMark x = none ∧ "VIEW=".toList.isPrefixOf x = false) →
      hdr2vm io pint (getinfoText path (pre ++ (viewMark ++ t) :: post)) [] dims =
        expected io (pre ++ (viewMark ++ t) :: post) (imgSize pint dims)) ∧
    (∀ lines : List Str, Lines lines → Quiet path lines → (∀ x ∈ lines, afterLast viewMark x = none) →
      hdr2vm io pint (getinfoText path lines) [] dims = expected io lines (imgSize pint dims)) := by
  refine ⟨fun pre t post hb q ht hpost => ?_, fun lines _ q h => ?_⟩
  · have hl : afterLast viewMark (viewMark ++ t) = some t := by
      have := afterLast_last (p := 'V') (pat := "IEW= -vta".toList) [] t (by decide) ht
      exact this
    rw [hdr2vm_of io pint path dims _ q ((C192_exact path pre _ post hb).1 t hl fun x hx => (hpost x hx).1)]
    unfold expected
    rw [ownView_last pre _ post rfl fun x hx => (hpost x hx).2]
    rfl
  · rw [hdr2vm_of io pint path dims _ q (C192_none path lines q.path fun x hx => ⟨h x hx, q.rvu x hx⟩)]
    unfold expected
    cases ho : ownView lines with
    | none => rfl
    | some l =>
      have hm : l ∈ lines := (List.mem_filter.mp (List.mem_of_getLast? ho)).1
      have : angularWords l = none := by
        unfold angularWords
        rw [if_neg]
        intro hp
        have hx := h l hm
        obtain ⟨r, hr⟩ := List.isPrefixOf_iff_prefix.mp hp
        rw [← hr] at hx
        cases hr' : afterLast viewMark r with
        | some u => exact absurd hx (by rw [afterLast_pre _ hr']; simp)
        | none =>
          have := afterLast_last (p := 'V') (pat := "IEW= -vta".toList) [] r (by decide) hr'
          have h2 : afterLast viewMark (viewMark ++ r) = some r := this
          exact absurd (hx.symm.trans h2) (by simp)
      simp [this]

/-- **C192** what happens to the others: the last line with the marker wins, also when it is indented (a view of a picture
this one was made from) and also when a view of another type comes later -/
theorem C192_foreign {α : Type} (io : NumIO α) (pint : Str → Option ℤ) (path dims : Str) (pre : List Str) (a t : Str)
    (post : List Str) (hb : Lines (pre ++ (a ++ viewMark ++ t) :: post)) (q : Quiet path (pre ++ (a ++ viewMark ++ t) :: post))
    (ht : afterLast viewMark t = none) (hpost : ∀ x ∈ post, afterLast viewMark x = none) :
    hdr2vm io pint (getinfoText path (pre ++ (a ++ viewMark ++ t) :: post)) [] dims =
      (readView io (tokens t) (imgSize pint dims)).map some := by
  have hl : afterLast viewMark (a ++ viewMark ++ t) = some t :=
    afterLast_last (p := 'V') (pat := "IEW= -vta".toList) a t (by decide) ht
  rw [hdr2vm_of io pint path dims _ q ((C192_exact path pre _ post hb).1 t hl hpost)]
  rfl

/-- **C192** an image with the words `cannot open` in its header is reported as not found, whatever its view -/
theorem C192_cannot_open {α : Type} (io : NumIO α) (pint : Str → Option ℤ) (path dims : Str) (lines : List Str) (l : Str)
    (hl : l ∈ lines) (h : (afterLast "cannot open".toList l).isSome) :
    hdr2vm io pint (getinfoText path lines) [] dims = .error .FileNotFoundError := by
  have h1 : (afterLast "cannot open".toList (getinfoText path lines)).isSome := by
    obtain ⟨pre, post, rfl⟩ := List.append_of_mem hl
    obtain ⟨a, ha⟩ := body_append pre l post
    obtain ⟨t, ht⟩ := Option.isSome_iff_exists.mp h
    have h2 : ∃ u, afterLast "cannot open".toList (body (l :: post)) = some u := by
      rw [body_cons, afterLast_line (by decide) (by decide), tab_skip (by decide) (by decide), ht]
      cases afterLast "cannot open".toList (body post) with
      | some u => exact ⟨u, rfl⟩
      | none => exact ⟨_, rfl⟩
    obtain ⟨u, hu⟩ := h2
    rw [getinfoText_body, afterLast_line (by decide) (by decide), ha, afterLast_pre _ hu]
    rfl
  unfold hdr2vm
  have : afterLast "bad header!".toList [] = none := by decide
  rw [this, if_neg (by simp), if_pos h1]

/-- an image with an angular view in its history that shows a perspective view -/
def reprojected : List Str := ["VIEW= -vta -vv 180 -vh 180 -vd 0 1 0".toList, "VIEW= -vtv -vv 45 -vh 60 -vd 1 0 0".toList]

theorem reprojected_quiet : Lines reprojected ∧ Quiet "a.hdr".toList reprojected := by
  refine ⟨by unfold Lines; decide +kernel, by decide +kernel, by decide +kernel, by decide +kernel⟩

/-- **C192** is false: the angular view an image was made from counts as its view although it shows another one. -/
theorem C192_refuted : ¬ C192_statement := by
  intro h
  obtain ⟨hb, q⟩ := reprojected_quiet
  have h1 := h unary (fun _ => none) "a.hdr".toList [] reprojected hb q
  have h2 := C192_foreign unary (fun _ => none) "a.hdr".toList [] [] [] " -vv 180 -vh 180 -vd 0 1 0".toList
    ["VIEW= -vtv -vv 45 -vh 60 -vd 1 0 0".toList] hb q (by decide +kernel) (by decide +kernel)
  have h3 := h1.symm.trans h2
  have h4 : (ownView reprojected).bind angularWords = none := by decide +kernel
  unfold expected at h3
  rw [h4] at h3
  unfold made at h3
  generalize readView unary (tokens " -vv 180 -vh 180 -vd 0 1 0".toList) (imgSize (fun _ => none) []) = r at h3
  cases r with
  | error e => cases h3
  | ok v => cases h3

/-- the hypotheses of `C192_partial` and `C192_foreign` are met by headers with several views -/
example : Lines ["pinterp -vf old.vf".toList, "VIEW= -vtv -vh 60".toList, "VIEW= -vta -vh 180".toList, "EXPOSURE=2".toList] ∧
    Quiet "a.hdr".toList ["pinterp -vf old.vf".toList, "VIEW= -vtv -vh 60".toList, "VIEW= -vta -vh 180".toList, "EXPOSURE=2".toList] ∧
    afterLast viewMark " -vh 180".toList = none ∧
    (∀ x ∈ ["EXPOSURE=2".toList], afterLast viewMark x = none ∧ "VIEW=".toList.isPrefixOf x = false) := by
  refine ⟨by unfold Lines; decide +kernel, ⟨by decide +kernel, by decide +kernel, by decide +kernel⟩, by decide +kernel, by decide +kernel⟩

/-! ### where a view line ends -/

/-- the characters that end a line for Python: the line feed, the vertical tab, the form feed, the carriage return, the file,
group and record separators, the next-line character, and the Unicode line and paragraph separators -/
def lineEnds : Str := ['\n', '\x0b', '\x0c', '\r', '\x1c', '\x1d', '\x1e', '\u0085', '\u2028', '\u2029']

theorem splitlines_go_end (c : Char) (hc : c ∈ lineEnds) (l post cur : Str) (hl : ∀ x ∈ l, isLineBreak x = false) :
    ∃ r, splitlinesGo cur (l ++ c :: post) = (cur.reverse ++ l) :: r := by
  have hb : isLineBreak c = true := (by decide : ∀ c ∈ lineEnds, isLineBreak c = true) c hc
  induction l generalizing cur with
  | nil =>
    rw [List.nil_append, List.append_nil]
    by_cases h : c = '\r' ∧ ∃ cs, post = '\n' :: cs
    · obtain ⟨rfl, cs, rfl⟩ := h
      exact ⟨_, by rw [splitlinesGo]⟩
    · refine ⟨splitlinesGo [] post, ?_⟩
      rw [splitlinesGo]
      · simp [hb]
      · intro cs h1 h2; exact h ⟨h1, cs, h2⟩
  | cons x l ih =>
    have hx := hl x List.mem_cons_self
    obtain ⟨r, hr⟩ := ih (x :: cur) fun y hy => hl y (List.mem_cons_of_mem _ hy)
    refine ⟨r, ?_⟩
    rw [List.cons_append, splitlinesGo]
    · simp only [hx, Bool.false_eq_true, if_false, hr, List.reverse_cons, List.append_assoc, List.singleton_append]
    · intro cs hcs
      rw [hcs] at hx
      exact absurd hx (by decide)

/-- **C192, the end of the line.** The words of a view are cut at the first of all the characters that end a line in Python,
not only at the line feed: anything behind one of them is not read. -/
theorem C192_line_end (c : Char) (hc : c ∈ lineEnds) (t post : Str) (h : ∀ x ∈ t, x ∉ lineEnds) :
    firstTokens (t ++ c :: post) = .ok (tokens t) := by
  have hb : ∀ x ∈ t, isLineBreak x = false := by
    intro x hx
    have hn := h x hx
    by_contra hcon
    apply hn
    simp only [isLineBreak, Bool.not_eq_false, Bool.or_eq_true, Bool.and_eq_true, decide_eq_true_eq, beq_iff_eq] at hcon
    have key : ∀ k : Char, x.toNat = k.toNat → k ∈ lineEnds → x ∈ lineEnds := by
      intro k hk hm
      rwa [Char.toNat_inj.mp hk]
    have hlist : x.toNat ∈ lineEnds.map Char.toNat := by
      simp only [lineEnds, List.map_cons, List.map_nil, List.mem_cons, List.not_mem_nil, or_false]
      show x.toNat = 10 ∨ x.toNat = 11 ∨ x.toNat = 12 ∨ x.toNat = 13 ∨ x.toNat = 28 ∨ x.toNat = 29 ∨ x.toNat = 30 ∨
        x.toNat = 0x85 ∨ x.toNat = 0x2028 ∨ x.toNat = 0x2029
      omega
    obtain ⟨k, hk, he⟩ := List.mem_map.mp hlist
    exact key k he.symm hk
  obtain ⟨r, hr⟩ := splitlines_go_end c hc t post [] hb
  unfold firstTokens splitlines
  rw [hr]
  rfl

example : firstTokens (" -vv 90".toList ++ '\u2028' :: " -vh 45".toList) = .ok ["-vv".toList, "90".toList] :=
  (C192_line_end '\u2028' (by decide) _ _ (by decide)).trans (by decide)

end Verif.ViewHdr
