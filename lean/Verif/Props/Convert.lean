import Verif.Props.Files
import Verif.Props.Names
import Verif.Props.Shell
import Verif.Props.ViewHeader
import Verif.Lemmas.HeaderChars
import Verif.Lemmas.HeaderText
/-! # Properties of the conversions of image files: C123 and C124 for the commands, C125, C126, C127 -/
namespace Verif.Conv
open Verif.Py Verif.Header Verif.ViewHdr Verif.Map Verif.Files

variable {α P : Type}

deriving instance DecidableEq for File
deriving instance DecidableEq for Plan

/-! ## the small world used in examples: numbers in unary, one picture -/

/-- one piece per line, numbers in unary, pictures of two by two pixels without content -/
def toyEnv : Env ℕ Unit where
  wrap _ _ t := if t = [] then [] else [t]
  io := unary
  num _ := 0
  pint _ := some 2
  dims _ := "-Y 2 +X 2".toList
  pval _ := "pvalue -r".toList

theorem toy_wrap : WrapOk toyEnv.wrap where
  join w ind t := by unfold toyEnv; by_cases h : t = [] <;> simp [h]
  head w ind t p ps hp := by
    unfold toyEnv at hp
    by_cases h : t = []
    · simp [h] at hp
    · simp only [h, if_false] at hp
      injection hp with hp
      rw [← hp]; exact h
  fits w ind t h _ := by unfold toyEnv; simp [h]

def one (path : Str) (f : File P) : Store (File P) := fun q => if q = path then some f else none

/-! ## C127: the lines of a header -/

theorem getinfo_image (path : Str) (lines : List Str) (px : P) :
    hdrHeader path (some (.image lines px)) =
      if has "cannot open".toList (getinfoText path lines) then .error .FileNotFoundError
      else .ok (headerLines (getinfoText path lines)) := by
  unfold hdrHeader getinfo
  simp only
  rw [if_neg (by decide)]

/-- a line as `getinfo` prints it: no line breaks, a visible character at both ends -/
def Neat (l : Str) : Prop := NB l ∧ ∃ a s b, (l = a :: s ++ [b] ∨ (l = [a] ∧ b = a)) ∧ isSpace a = false ∧ isSpace b = false

/-- **C127**, the full claim: the lines behind the first one of a picture come back, behind a title line. -/
def C127_statement : Prop :=
  ∀ (P : Type) (path : Str) (lines : List Str) (px : P), Neat path → (∀ l ∈ lines, Neat l) →
    hdrHeader path (some (.image ("#?RADIANCE".toList :: lines) px)) = .ok ((path ++ [':']) :: lines.map ('\t' :: ·))

theorem neat_last {l : Str} (h : Neat l) : ∃ s b, l = s ++ [b] ∧ isSpace b = false := by
  obtain ⟨-, a, s, b, h | ⟨h, rfl⟩, ha, hb⟩ := h
  · exact ⟨a :: s, b, h, hb⟩
  · exact ⟨[], b, h, hb⟩

theorem neat_head {l : Str} (h : Neat l) : ∃ a s, l = a :: s ∧ isSpace a = false := by
  obtain ⟨-, a, s, b, h | ⟨h, rfl⟩, ha, hb⟩ := h
  · exact ⟨a, s ++ [b], h, ha⟩
  · exact ⟨b, [], h, hb⟩

theorem rstrip_append_space (s t : Str) (ht : ∀ c ∈ t, isSpace c = true) : rstrip (s ++ t) = rstrip s := by
  induction t using List.reverseRecOn with
  | nil => rw [List.append_nil]
  | append_singleton t c ih =>
    rw [← List.append_assoc, rstrip_snoc _ _ (ht c (by simp)), ih fun x hx => ht x (by simp [hx])]

theorem joinWith_snoc (ls : List Str) (l : Str) (h : ls ≠ []) : joinWith '\n' (ls ++ [l]) = joinWith '\n' ls ++ '\n' :: l := by
  induction ls with
  | nil => exact absurd rfl h
  | cons a ls ih =>
    cases ls with
    | nil => rfl
    | cons b ls => rw [List.cons_append, List.cons_append, joinWith, ← List.cons_append, ih (by simp)]; simp [joinWith]

theorem unlines_eq (ls : List Str) (h : ls ≠ []) : unlines ls = joinWith '\n' ls ++ ['\n'] := by
  induction ls with
  | nil => exact absurd rfl h
  | cons a ls ih =>
    cases ls with
    | nil => simp [unlines, joinWith]
    | cons b ls =>
      have := ih (by simp)
      unfold unlines at this ⊢
      rw [List.map_cons, List.flatten_cons, this]
      simp [joinWith]

/-- **C127** exactly the lines with the word RADIANCE are left out, the title included. -/
theorem C127_lines (path : Str) (lines : List Str) (px : P) (hp : Neat path) (hl : ∀ l ∈ lines, Neat l) :
    hdrHeader path (some (.image lines px)) =
      if has "cannot open".toList (getinfoText path lines) then .error .FileNotFoundError
      else .ok (((path ++ [':']) :: lines.map ('\t' :: ·)).filter fun l => !has "RADIANCE".toList l) := by
  rw [getinfo_image]
  congr 1
  unfold headerLines
  congr 2
  have hne : (path ++ [':']) :: lines.map ('\t' :: ·) ≠ [] := by simp
  have e : getinfoText path lines = joinWith '\n' ((path ++ [':']) :: lines.map ('\t' :: ·)) ++ ['\n', '\t'] := by
    rw [getinfoText_eq, unlines_eq _ hne]; simp
  obtain ⟨a, s, hpa, ha⟩ := neat_head hp
  have hhead : ∃ t, joinWith '\n' ((path ++ [':']) :: lines.map ('\t' :: ·)) = a :: t := by
    rw [hpa]
    cases lines with
    | nil => exact ⟨_, rfl⟩
    | cons l ls => exact ⟨_, rfl⟩
  have hlast : ∃ t b, joinWith '\n' ((path ++ [':']) :: lines.map ('\t' :: ·)) = t ++ [b] ∧ isSpace b = false := by
    rcases List.eq_nil_or_concat lines with rfl | ⟨ls, l, rfl⟩
    · exact ⟨path, ':', rfl, by decide⟩
    · obtain ⟨t, b, hb, hsp⟩ := neat_last (hl l (by simp))
      rw [List.concat_eq_append, List.map_append, ← List.cons_append, List.map_singleton, joinWith_snoc _ _ (by simp), hb]
      exact ⟨joinWith '\n' ((path ++ [':']) :: ls.map ('\t' :: ·)) ++ '\n' :: '\t' :: t, b, by simp, hsp⟩
  obtain ⟨t, ht⟩ := hhead
  obtain ⟨u, b, hu, hb⟩ := hlast
  have hst : strip (getinfoText path lines) = joinWith '\n' ((path ++ [':']) :: lines.map ('\t' :: ·)) := by
    rw [e]
    unfold strip
    have : lstrip (joinWith '\n' ((path ++ [':']) :: lines.map ('\t' :: ·)) ++ ['\n', '\t']) =
        joinWith '\n' ((path ++ [':']) :: lines.map ('\t' :: ·)) ++ ['\n', '\t'] := by
      rw [ht]
      unfold lstrip
      rw [List.cons_append, List.dropWhile_cons, if_neg (by simp [ha])]
    rw [this, rstrip_append_space _ _ (by decide), hu, rstrip_snoc_ne _ _ hb]
  rw [hst, splitlines_join]
  intro l hm
  rcases List.mem_cons.mp hm with rfl | hm
  · exact ⟨by simp, NB.append hp.1 (by intro c hc; rw [List.mem_singleton] at hc; rw [hc]; decide)⟩
  · obtain ⟨l', hl', rfl⟩ := List.mem_map.mp hm
    exact ⟨by simp, NB.append (a := ['\t']) (by intro c hc; rw [List.mem_singleton] at hc; rw [hc]; decide) (hl l' hl').1⟩

theorem has_false_of_filter (ls : List Str) (pat : Str) (h : ∀ l ∈ ls, has pat l = false) :
    (ls.filter fun l => !has pat l) = ls := by
  rw [List.filter_eq_self]
  intro l hl
  rw [h l hl]; rfl

/-- **C127** holds when the word RADIANCE only stands in the first line and nothing reads "cannot open". -/
theorem C127_partial (path : Str) (lines : List Str) (px : P) (hp : Neat path) (hl : ∀ l ∈ lines, Neat l)
    (hrad : ∀ l ∈ (path ++ [':']) :: lines.map ('\t' :: ·), has "RADIANCE".toList l = false)
    (hopen : has "cannot open".toList (getinfoText path ("#?RADIANCE".toList :: lines)) = false) :
    hdrHeader path (some (.image ("#?RADIANCE".toList :: lines) px)) = .ok ((path ++ [':']) :: lines.map ('\t' :: ·)) := by
  have hmagic : Neat "#?RADIANCE".toList :=
    ⟨by intro c hc; revert c; decide, '#', "?RADIANC".toList, 'E', Or.inl (by decide), by decide, by decide⟩
  rw [C127_lines path _ px hp (by
    intro l hm
    rcases List.mem_cons.mp hm with rfl | hm
    · exact hmagic
    · exact hl l hm), hopen]
  simp only [Bool.false_eq_true, if_false]
  congr 1
  rw [List.map_cons, List.filter_cons, List.filter_cons]
  have h1 := hrad (path ++ [':']) (by simp)
  rw [h1]
  have h2 : has "RADIANCE".toList ('\t' :: "#?RADIANCE".toList) = true := by decide
  rw [h2]
  simp only [Bool.not_false, if_true, Bool.not_true, Bool.false_eq_true, if_false]
  rw [has_false_of_filter _ _ fun l hm => hrad l (List.mem_cons_of_mem _ hm)]

/-- **C127** is false: a line that names the software is lost. -/
theorem C127_refuted : ¬ C127_statement := by
  intro h
  have := h Unit "a.hdr".toList ["SOFTWARE= RADIANCE 5.3".toList] ()
    ⟨by intro c hc; revert c; decide, 'a', ".hd".toList, 'r', Or.inl (by decide), by decide, by decide⟩
    (by
      intro l hl
      rw [List.mem_singleton] at hl
      subst hl
      exact ⟨by intro c hc; revert c; decide, 'S', "OFTWARE= RADIANCE 5.".toList, '3', Or.inl (by decide), by decide, by decide⟩)
  revert this
  decide +kernel

/-- **C127** a missing file and a damaged one are reported. -/
theorem C127_missing (path : Str) :
    hdrHeader path (none : Option (File P)) = .error .FileNotFoundError ∧
      hdrHeader path (some .blank : Option (File P)) = .error .IOError := by
  constructor
  · have e : getinfo path (none : Option (File P)) = (path ++ ": cannot open\n".toList, []) := rfl
    have h1 : has "cannot open".toList (path ++ ": cannot open\n".toList) = true := by
      rw [has_iff]
      exact ⟨path ++ ": ".toList, "\n".toList, by rw [List.append_assoc, List.append_assoc]; congr 1⟩
    unfold hdrHeader
    rw [e, if_neg (by show ¬ has "bad header!".toList [] = true; decide), if_pos h1]
  · have e : getinfo path (some .blank : Option (File P)) = (path ++ ":\n\t".toList, "bad header!\n".toList) := rfl
    unfold hdrHeader
    rw [e, if_pos (by show has "bad header!".toList "bad header!\n".toList = true; decide)]

/-- a header to which C127 applies -/
example : hdrHeader "a.hdr".toList (some (.image ["#?RADIANCE".toList, "rpict -vta x.oct".toList, "VIEW= -vta".toList] ())) =
    .ok ["a.hdr:".toList, "\trpict -vta x.oct".toList, "\tVIEW= -vta".toList] := by decide +kernel

/-! ## C125: the view in the header of a converted image -/

/-- what is asked of a picture: its header lines and its path have no line breaks and no single quotes -/
structure Plain (path : Str) (lines : List Str) : Prop where
  pnb : NB path
  pq : '\'' ∉ path
  nb : ∀ l ∈ lines, NB l
  q : ∀ l ∈ lines, '\'' ∉ l

theorem headerLines_mem (text : Str) : ∀ l ∈ headerLines text, ∀ c ∈ l, c ∈ text := by
  intro l hl c hc
  have h1 := (List.mem_filter.mp hl).1
  rcases splitlinesGo_mem (strip text) [] l h1 c hc with h | h
  · simp at h
  · exact strip_mem text c h

theorem headerLines_nb (text : Str) : ∀ l ∈ headerLines text, NB l := fun l hl =>
  splitlines_pieces _ l (List.mem_filter.mp hl).1

theorem headerLines_q {path : Str} {lines : List Str} (h : Plain path lines) :
    ∀ l ∈ headerLines (getinfoText path lines), '\'' ∉ l := by
  intro l hl hc
  have := headerLines_mem _ l hl _ hc
  unfold getinfoText at this
  simp only [List.mem_append, List.mem_flatMap] at this
  rcases this with (h1 | h1) | ⟨l', hl', h1 | h1⟩
  · exact h.pq h1
  · revert h1; decide
  · exact h.q l' hl' h1
  · revert h1; decide

/-- what the writer does with a header without single quotes -/
theorem encode_ok (env : Env α P) (hwr : WrapOk env.wrap) (header out : List Str) (px : P) (hq : ∀ l ∈ header, '\'' ∉ l)
    (hout : cleanHeader env.wrap header = .ok out) :
    encode env header px = .ok (.image
      ("#?RADIANCE".toList :: env.pval px :: "FORMAT=32-bit_rle_rgbe".toList :: (if out = [] then [[]] else out)) px) := by
  have hoq : ∀ l ∈ out, '\'' ∉ l := by
    have := cleanHeader_only (A := fun c => c ≠ '\'') (by decide) env.wrap hwr header
      (fun l hl c hc e => hq l hl (e ▸ hc)) out hout
    intro l hl hc
    exact this l hl _ hc rfl
  unfold encode
  rw [hout]
  by_cases he : out = []
  · subst he
    simp only [Except.bind, Shell.C117_empty, Except.map, if_true]
    rfl
  · simp only [Except.bind, Shell.C117_lines_partial out he hoq, Except.map, if_neg he]
    rfl

/-- the lines written end with the last view of the header -/
theorem encode_view (env : Env α P) (hwr : WrapOk env.wrap) (header : List Str) (px : P) (hq : ∀ l ∈ header, '\'' ∉ l)
    (hnb : ∀ l ∈ header, NB l) {f : File P} (h : encode env header px = .ok f) :
    ∃ pre, f = .image (pre ++ Spec.viewLine (Spec.lastView header)) px := by
  match hout : cleanHeader env.wrap header with
  | .error e => unfold encode at h; rw [hout] at h; cases h
  | .ok out =>
    rw [encode_ok env hwr header out px hq hout] at h
    injection h with h
    have h13 := C13_only_last_view env.wrap 150 (joinWith '\n' header)
    unfold cleanHeader at hout
    rw [hout, lastView_join header hnb] at h13
    match hx : cleanText env.wrap 150 (unlines ((splitlines (joinWith '\n' header)).filter fun h => !decide (Spec.isDropped h))) with
    | .error e => rw [hx] at h13; cases h13
    | .ok o =>
      rw [hx] at h13
      injection h13 with h13
      cases hv : Spec.lastView header with
      | none =>
        refine ⟨"#?RADIANCE".toList :: env.pval px :: "FORMAT=32-bit_rle_rgbe".toList :: (if out = [] then [[]] else out), ?_⟩
        rw [← h]
        simp only [Spec.viewLine, List.append_nil]
      | some v =>
        rw [hv] at h13
        refine ⟨"#?RADIANCE".toList :: env.pval px :: "FORMAT=32-bit_rle_rgbe".toList :: o, ?_⟩
        rw [← h, h13, if_neg (by simp [Spec.viewLine])]
        simp

/-- the end of a conversion of a picture: the last view of its header, or of the lines added to it -/
theorem finish_view (env : Env α P) (hwr : WrapOk env.wrap) {path : Str} {lines : List Str} (hpl : Plain path lines)
    (extra : List Str) (hq : ∀ l ∈ extra, '\'' ∉ l) (hnb : ∀ l ∈ extra, NB l) (img : P) {f : File P}
    (h : finish env (.ok (headerLines (getinfoText path lines) ++ extra, img)) = .write f) :
    ∃ pre, f = .image (pre ++ Spec.viewLine
      (Spec.lastView ((lines.filter fun l => !has "RADIANCE".toList l) ++ extra))) img := by
  match he : encode env (headerLines (getinfoText path lines) ++ extra) img with
  | .error e => simp only [finish, he] at h; cases h
  | .ok g =>
    simp only [finish, he] at h
    injection h with h
    subst h
    obtain ⟨pre, hpre⟩ := encode_view env hwr _ img (by
      intro l hl
      rcases List.mem_append.mp hl with hl | hl
      · exact headerLines_q hpl l hl
      · exact hq l hl) (by
      intro l hl
      rcases List.mem_append.mp hl with hl | hl
      · exact headerLines_nb _ l hl
      · exact hnb l hl) he
    refine ⟨pre, ?_⟩
    rw [hpre]
    have : Spec.lastView (headerLines (getinfoText path lines) ++ extra) =
        Spec.lastView ((lines.filter fun l => !has "RADIANCE".toList l) ++ extra) := by
      unfold Spec.lastView
      rw [List.filterMap_append, List.filterMap_append,
        headerLines_blind viewValue_blind (fun l => viewValue_congr (strip_cons l '\t' (by decide))) path lines hpl.pnb
          hpl.nb viewValue_title]
    rw [this]

theorem readImage_image (path : Str) (lines : List Str) (px : P) :
    readImage path (some (.image lines px)) (some (.image lines px)) =
      if has "cannot open".toList (getinfoText path lines) then .error .FileNotFoundError
      else .ok (px, headerLines (getinfoText path lines)) := by
  unfold readImage pixels
  simp only [Except.bind, getinfo_image]
  split_ifs <;> rfl

/-- the view in the header of a picture -/
def viewOf (lines : List Str) : List Str := Spec.viewLine (Spec.lastView (lines.filter fun l => !has "RADIANCE".toList l))

/-- **C125** from square to angular: the pixels are those computed, the header ends with the last view of the input. -/
theorem C125_uv2ang (env : Env α P) (hwr : WrapOk env.wrap) (conv : P → Except PyErr P) (stdout : Bool) (s : Store (File P))
    (path : Str) (lines : List Str) (px : P) (hs : s path = some (.image lines px)) (hpl : Plain path lines) (f : File P)
    (h : alone s (uv2angJob env conv stdout path) = .write f) :
    ∃ img pre, conv px = .ok img ∧ f = .image (pre ++ viewOf lines) img := by
  have h' : finish env ((readImage path (some (.image lines px)) (some (.image lines px))).bind
      fun r => (conv r.1).map fun img => (r.2, img)) = .write f := by
    rw [← hs]; exact h
  rw [readImage_image] at h'
  split_ifs at h' with hc
  · cases h'
  · simp only [Except.bind] at h'
    match hcv : conv px with
    | .error e => rw [hcv] at h'; cases h'
    | .ok img =>
      rw [hcv] at h'
      simp only [Except.map] at h'
      obtain ⟨pre, hpre⟩ := finish_view env hwr hpl [] (by simp) (by simp) img (by rw [List.append_nil]; exact h')
      rw [List.append_nil] at hpre
      exact ⟨img, pre, rfl, hpre⟩

/-- **C125** from angular to square: the header ends with the view of the input although the image is not angular. -/
theorem C125_ang2uv (env : Env α P) (hwr : WrapOk env.wrap) (conv : View → P → Except PyErr P) (useview stdout : Bool)
    (s : Store (File P)) (path : Str) (lines : List Str) (px : P) (hs : s path = some (.image lines px))
    (hpl : Plain path lines) (f : File P) (h : alone s (ang2uvJob env conv useview stdout path) = .write f) :
    ∃ v img pre, ang2uvView env useview path (s path) (s path) = .ok v ∧ conv v px = .ok img ∧
      f = .image (pre ++ viewOf lines) img := by
  have h' : finish env ((ang2uvView env useview path (s path) (s path)).bind fun v =>
      (readImage path (s path) (s path)).bind fun r => (conv v r.1).map fun img => (r.2, img)) = .write f := h
  match hv : ang2uvView env useview path (s path) (s path) with
  | .error e => rw [hv] at h'; cases h'
  | .ok v =>
    rw [hv, hs, readImage_image] at h'
    simp only [Except.bind] at h'
    split_ifs at h' with hc
    · cases h'
    · simp only at h'
      match hcv : conv v px with
      | .error e => rw [hcv] at h'; cases h'
      | .ok img =>
        rw [hcv] at h'
        simp only [Except.map] at h'
        obtain ⟨pre, hpre⟩ := finish_view env hwr hpl [] (by simp) (by simp) img (by rw [List.append_nil]; exact h')
        rw [List.append_nil] at hpre
        exact ⟨v, img, pre, rfl, hcv, hpre⟩

/-- **C125** rotating and aligning: the header ends with the view of the input. -/
theorem C125_rotate (env : Env α P) (hwr : WrapOk env.wrap) (conv : P → Except PyErr P) (note : Str) (rotate : ℚ)
    (center : Option (List ℤ)) (first stdout : Bool) (hnote : Spec.viewValue note = none ∧ '\'' ∉ note ∧ NB note)
    (s : Store (File P)) (path : Str) (lines : List Str) (px : P) (hs : s path = some (.image lines px))
    (hpl : Plain path lines) (f : File P)
    (h : alone s (rotateJob env conv note rotate center first stdout path) = .write f) :
    ∃ img pre, conv px = .ok img ∧ f = .image (pre ++ viewOf lines) img := by
  match hn : Names.rotName rotate center first path with
  | .error e => unfold rotateJob at h; rw [hn] at h; cases h
  | .ok o =>
    have h' : finish env ((readImage path (some (.image lines px)) (some (.image lines px))).bind
        fun r => (conv r.1).map fun img => (r.2 ++ [note], img)) = .write f := by
      rw [← hs]
      unfold rotateJob at h
      rw [hn] at h
      exact h
    rw [readImage_image] at h'
    split_ifs at h' with hc
    · cases h'
    · simp only [Except.bind] at h'
      match hcv : conv px with
      | .error e => rw [hcv] at h'; cases h'
      | .ok img =>
        rw [hcv] at h'
        simp only [Except.map] at h'
        obtain ⟨pre, hpre⟩ := finish_view env hwr hpl [note] (by
          intro l hl; rw [List.mem_singleton] at hl; rw [hl]; exact hnote.2.1) (by
          intro l hl; rw [List.mem_singleton] at hl; rw [hl]; exact hnote.2.2) img h'
        rw [lastView_snoc, hnote.1] at hpre
        exact ⟨img, pre, rfl, hpre⟩

/-- **C125** cleaning a header: the pixels stay, the view stays. -/
theorem C125_clean_partial (env : Env α P) (hwr : WrapOk env.wrap) (s : Store (File P)) (path : Str) (lines : List Str) (px : P)
    (hs : s path = some (.image lines px)) (hpl : Plain path lines) (f : File P)
    (h : alone s (cleanJob env path) = .write f) : ∃ pre, f = .image (pre ++ viewOf lines) px := by
  have h' : finish env ((readImage path (some (.image lines px)) (some (.image lines px))).map fun r => (r.2, r.1)) =
      .write f := by rw [← hs]; exact h
  rw [readImage_image] at h'
  split_ifs at h' with hc
  · cases h'
  · simp only [Except.map] at h'
    obtain ⟨pre, hpre⟩ := finish_view env hwr hpl [] (by simp) (by simp) px (by rw [List.append_nil]; exact h')
    rw [List.append_nil] at hpre
    exact ⟨pre, hpre⟩

/-! ### equisolid images -/

/-- printed numbers contain no underscore and no single quote -/
def Tame (io : NumIO α) : Prop := ∀ x, '_' ∉ io.fmt x ∧ '\'' ∉ io.fmt x

theorem lineBreak_space (c : Char) (h : isLineBreak c = true) : isSpace c = true := by
  unfold isLineBreak at h
  unfold isSpace
  simp only [Bool.or_eq_true, Bool.and_eq_true, decide_eq_true_eq, beq_iff_eq] at h ⊢
  omega

theorem header_mem (io : NumIO α) (va : α) (d pt : α × α × α) (c : Char)
    (h : c ∈ header io va d pt false "vta".toList) :
    c ∈ "VIEW= -vta -vv  -vh  -vd  -vp  -vu 0 0 1".toList ∨ ∃ x, c ∈ io.fmt x := by
  have lit : ∀ t : Str, (∀ x ∈ t, x ∈ "VIEW= -vta -vv  -vh  -vd  -vp  -vu 0 0 1".toList) →
      Only (fun c => c ∈ "VIEW= -vta -vv  -vh  -vd  -vp  -vu 0 0 1".toList ∨ ∃ x, c ∈ io.fmt x) t :=
    fun t ht c hc => Or.inl (ht c hc)
  have num : ∀ x, Only (fun c => c ∈ "VIEW= -vta -vv  -vh  -vd  -vp  -vu 0 0 1".toList ∨ ∃ x, c ∈ io.fmt x) (io.fmt x) :=
    fun x c hc => Or.inr ⟨x, hc⟩
  have three : ∀ v : α × α × α, Only (fun c => c ∈ "VIEW= -vta -vv  -vh  -vd  -vp  -vu 0 0 1".toList ∨ ∃ x, c ∈ io.fmt x)
      (three io v) := fun v =>
    ((Only.cons (Or.inl (by decide)) (num v.1)).append (Only.cons (Or.inl (by decide)) (num v.2.1))).append
      (Only.cons (Or.inl (by decide)) (num v.2.2))
  have : Only (fun c => c ∈ "VIEW= -vta -vv  -vh  -vd  -vp  -vu 0 0 1".toList ∨ ∃ x, c ∈ io.fmt x)
      (header io va d pt false "vta".toList) := by
    unfold header
    exact (((((((((((lit _ (by decide)).append (lit _ (by decide))).append (lit _ (by decide))).append (num _)).append
      (lit _ (by decide))).append (num _)).append (lit _ (by decide))).append (three d)).append (lit _ (by decide))).append
      (three pt)).append (lit _ (by decide))).append (lit _ (by decide))
  exact this c h

theorem header_value {io : NumIO α} (ht : Tame io) (va : α) (d pt : α × α × α) :
    ∃ v, Spec.viewValue (header io va d pt false "vta".toList) = some v ∧
      "VIEW=".toList ++ v = header io va d pt false "vta".toList := by
  have hu : '_' ∉ header io va d pt false "vta".toList := by
    intro h
    rcases header_mem io va d pt _ h with h | ⟨x, h⟩
    · revert h; decide
    · exact (ht x).1 h
  obtain ⟨m, hm⟩ : ∃ m, header io va d pt false "vta".toList = "VIEW=".toList ++ (m ++ ['1']) := by
    refine ⟨" -".toList ++ "vta".toList ++ " -vv ".toList ++ io.fmt va ++ " -vh ".toList ++ io.fmt va ++ " -vd".toList
      ++ three io d ++ " -vp".toList ++ three io pt ++ " -vu ".toList ++ "0 0 ".toList, ?_⟩
    unfold header
    simp
  have hs : strip (header io va d pt false "vta".toList) = header io va d pt false "vta".toList := by
    rw [hm]
    exact strip_id 'V' '1' ("IEW=".toList ++ m) (by decide) (by decide)
  have hcl : cleanLine (header io va d pt false "vta".toList) = header io va d pt false "vta".toList := by
    unfold cleanLine
    rw [hs, subClasp_id _ _ hu (by simp)]
    rfl
  refine ⟨m ++ ['1'], ?_, hm.symm⟩
  unfold Spec.viewValue
  rw [hcl, hm]
  have hsec : isSectionText ("VIEW=".toList ++ (m ++ ['1'])) = false := by
    unfold isSectionText
    rw [← List.append_assoc, List.getLast?_concat]
    simp
  have hkv : keyVal ("VIEW=".toList ++ (m ++ ['1'])) = ("VIEW".toList, m ++ ['1']) := by
    unfold keyVal splitKV
    rw [if_pos (by simp)]
    simp
  rw [hsec, hkv]
  simp

theorem viewLine_header {io : NumIO α} (ht : Tame io) (ls : List Str) (va : α) (d pt : α × α × α) :
    Spec.viewLine (Spec.lastView (ls ++ [header io va d pt false "vta".toList])) =
      [header io va d pt false "vta".toList] := by
  obtain ⟨v, h1, h2⟩ := header_value ht va d pt
  rw [lastView_snoc, h1]
  simp only [Spec.viewLine, h2]

theorem solidHeader_plain (env : Env α P) (ok : NumOk env.io) (ht : Tame env.io) (va : ℝ) :
    '\'' ∉ solidHeader env va ∧ NB (solidHeader env va) := by
  constructor
  · intro h
    rcases header_mem _ _ _ _ _ h with h | ⟨x, h⟩
    · revert h; decide
    · exact (ht x).2 h
  · intro c h
    rcases header_mem _ _ _ _ _ h with h | ⟨x, h⟩
    · exact (by decide : ∀ c ∈ "VIEW= -vta -vv  -vh  -vd  -vp  -vu 0 0 1".toList, isLineBreak c = false) c h
    · cases hb : isLineBreak c with
      | false => rfl
      | true =>
        have := ok.nosp x c h
        rw [lineBreak_space c hb] at this
        cases this

/-- **C125** between equisolid and angular: the header ends with an angular view along the y axis of the size that was
used, whatever the view of the input and whichever way the conversion goes. -/
theorem C125_solid (env : Env α P) (hwr : WrapOk env.wrap) (ok : NumOk env.io) (ht : Tame env.io)
    (conv : Bool → ℝ → P → Except PyErr P) (reverse : Bool) (viewangle : Option ℝ) (stdout : Bool)
    (s : Store (File P)) (path : Str) (lines : List Str) (px : P) (hs : s path = some (.image lines px))
    (hpl : Plain path lines) (f : File P) (h : alone s (solidJob env conv reverse viewangle stdout path) = .write f) :
    ∃ va img pre, solidAngle env viewangle path (s path) (s path) = .ok va ∧ conv reverse va px = .ok img ∧
      f = .image (pre ++ [solidHeader env va]) img := by
  have h' : finish env ((readImage path (s path) (s path)).bind fun r =>
      (solidAngle env viewangle path (s path) (s path)).bind fun va =>
        (conv reverse va r.1).map fun img => (r.2 ++ [solidHeader env va], img)) = .write f := h
  rw [hs, readImage_image] at h'
  split_ifs at h' with hc
  · cases h'
  · simp only [Except.bind] at h'
    rw [← hs] at h'
    match hv : solidAngle env viewangle path (s path) (s path) with
    | .error e => rw [hv] at h'; cases h'
    | .ok va =>
      rw [hv] at h'
      simp only at h'
      match hcv : conv reverse va px with
      | .error e => rw [hcv] at h'; cases h'
      | .ok img =>
        rw [hcv] at h'
        simp only [Except.map] at h'
        obtain ⟨hq, hnb⟩ := solidHeader_plain env ok ht va
        obtain ⟨pre, hpre⟩ := finish_view env hwr hpl [solidHeader env va] (by
          intro l hl; rw [List.mem_singleton] at hl; rw [hl]; exact hq) (by
          intro l hl; rw [List.mem_singleton] at hl; rw [hl]; exact hnb) img h'
        rw [solidHeader, viewLine_header ht] at hpre
        exact ⟨va, img, pre, rfl, hcv, hpre⟩

theorem fileView_last (env : Env α P) (ok : NumOk env.io) (path : Str) (pre : List Str) (px : P) (va : α)
    (d pt : α × α × α) (up : Bool) (x y : ℤ) (hy : y ≠ 0)
    (hopen : has "cannot open".toList (getinfoText path (pre ++ [header env.io va d pt up "vta".toList])) = false)
    (hdim : imgSize env.pint (dimsText env path (some (.image (pre ++ [header env.io va d pt up "vta".toList]) px))) = .ok (x, y)) :
    fileView env path (some (.image (pre ++ [header env.io va d pt up "vta".toList]) px))
      (some (.image (pre ++ [header env.io va d pt up "vta".toList]) px)) =
      .ok (some (View.new (vec env.io d) (env.io.val va * x / y))) := by
  have e : getinfoText path (pre ++ [header env.io va d pt up "vta".toList]) =
      getinfoText path pre ++ header env.io va d pt up "vta".toList ++ '\n' :: ['\t'] := by
    unfold getinfoText
    simp
  unfold fileView getinfo
  simp only
  rw [e] at hopen ⊢
  rw [hdr2vm_read ok env.pint va d pt up _ _ _ _ x y hy ⟨by decide, ?_, by decide⟩ hdim]
  · rfl
  · unfold has at hopen
    rwa [Option.isSome_eq_false_iff, Option.isNone_iff_eq_none] at hopen

/-- **C125** the written view is read back: along the y axis, of the size used (times the aspect of the image). -/
theorem C125_solid_read (env : Env α P) (ok : NumOk env.io) (path : Str) (pre : List Str) (img : P) (va : ℝ)
    (h0 : env.io.val (env.num 0) = 0) (h1 : env.io.val (env.num 1) = 1) (hva : env.io.val (env.num va) = va) (x : ℤ)
    (hx : x ≠ 0) (hopen : has "cannot open".toList (getinfoText path (pre ++ [solidHeader env va])) = false)
    (hdim : imgSize env.pint (dimsText env path (some (.image (pre ++ [solidHeader env va]) img))) = .ok (x, x)) :
    fileView env path (some (.image (pre ++ [solidHeader env va]) img)) (some (.image (pre ++ [solidHeader env va]) img)) =
      .ok (some (View.new ⟨0, 1, 0⟩ va)) := by
  have := fileView_last env ok path pre img (env.num va) (env.num 0, env.num 1, env.num 0) (env.num 0, env.num 0, env.num 0)
    false x x hx hopen hdim
  unfold solidHeader
  rw [this]
  have hx' : (x : ℝ) ≠ 0 := by exact_mod_cast hx
  simp only [vec, h0, h1, hva]
  rw [mul_div_assoc, div_self hx', mul_one]

/-- **C125**, the full claim: the header of a converted image does not announce a projection the image does not have. -/
def C125_statement : Prop :=
  ∀ (α P : Type) (env : Env α P), NumOk env.io → WrapOk env.wrap → Tame env.io → ∀ (s : Store (File P)) (path : Str)
    (lines : List Str) (img : P) (stdout : Bool),
    (∀ conv useview, alone s (ang2uvJob env conv useview stdout path) = .write (.image lines img) →
      ∀ l ∈ lines, has "VIEW= -vta".toList l = false) ∧
    (∀ conv viewangle, alone s (solidJob env conv true viewangle stdout path) = .write (.image lines img) →
      ∀ l ∈ lines, has "VIEW= -vta".toList l = false)

theorem toy_tame : Tame toyEnv.io := by
  intro x
  constructor <;> intro h <;> exact absurd (List.eq_of_mem_replicate h) (by decide)

/-- a picture with an angular view -/
def toyImage : File Unit := .image ["#?RADIANCE".toList, "VIEW= -vta -vh 11".toList] ()

theorem toy_uv : alone (one "a.hdr".toList toyImage) (ang2uvJob toyEnv (fun _ => .ok) false false "a.hdr".toList) =
    .write (.image ["#?RADIANCE".toList, "pvalue -r".toList, "FORMAT=32-bit_rle_rgbe".toList,
      "VIEW= -vta -vh 11".toList] ()) := by
  decide +kernel

/-- **C125** is false: the square version of an angular image still claims to be angular. -/
theorem C125_refuted : ¬ C125_statement := by
  intro h
  have := (h ℕ Unit toyEnv unary_ok toy_wrap toy_tame (one "a.hdr".toList toyImage) "a.hdr".toList _ () false).1
    (fun _ => .ok) false toy_uv "VIEW= -vta -vh 11".toList (by simp)
  revert this
  decide

/-- the conditions of the theorems are met -/
example : Plain "a.hdr".toList ["#?RADIANCE".toList, "VIEW= -vta -vh 11".toList] :=
  ⟨by intro c hc; revert c; decide, by decide, by
    intro l hl c hc
    have : ∀ l ∈ ["#?RADIANCE".toList, "VIEW= -vta -vh 11".toList], ∀ c ∈ l, isLineBreak c = false := by decide
    exact this l hl c hc, by decide⟩

/-- a conversion to which `C125_solid` applies -/
example : alone (one "a.hdr".toList toyImage) (solidJob toyEnv (fun _ _ => .ok) true (some 100) false "a.hdr".toList) =
    .write (.image ["#?RADIANCE".toList, "pvalue -r".toList, "FORMAT=32-bit_rle_rgbe".toList,
      solidHeader toyEnv 100] ()) := by
  decide +kernel

/-- numbers whose fraction is not printed -/
noncomputable def floorEnv : Env ℕ Unit := { toyEnv with num := fun r => ⌊r⌋₊ }

/-- the conditions of `C125_solid_read` are met by a 100 degree view -/
example : fileView floorEnv "a.hdr".toList (some (.image ([] ++ [solidHeader floorEnv 100]) ()))
    (some (.image ([] ++ [solidHeader floorEnv 100]) ())) = .ok (some (View.new ⟨0, 1, 0⟩ 100)) := by
  refine C125_solid_read floorEnv unary_ok "a.hdr".toList [] () 100 ?_ ?_ ?_ 2 (by decide) ?_ ?_
  · simp [floorEnv, toyEnv, unary]
  · simp [floorEnv, toyEnv, unary]
  · have : ⌊(100 : ℝ)⌋₊ = 100 := Nat.floor_natCast 100
    simp [floorEnv, toyEnv, unary, this]
  · rw [Bool.eq_false_iff]
    intro hh
    have hn := ((has_iff _ _).mp hh).subset (show 'n' ∈ "cannot open".toList by decide)
    unfold getinfoText at hn
    simp only [List.nil_append, List.mem_append, List.flatMap_cons, List.flatMap_nil, List.append_nil] at hn
    rcases hn with (hn | hn) | hn | hn
    · revert hn; decide
    · revert hn; decide
    · exact header_no _ 'n' (by decide) (by decide) _ _ _ _ hn
    · revert hn; decide
  · show imgSize (fun _ => some 2) "a.hdr: -Y 2 +X 2\n".toList = .ok (2, 2)
    decide +kernel

/-! ## C126: the size of the view in `solid2ang` -/

/-- **C126**, the full claim: without an explicit angle the size of the view in the header is used, whatever its type. -/
def C126_statement : Prop :=
  ∀ (α P : Type) (env : Env α P), NumOk env.io → ∀ (path : Str) (pre : List Str) (px : P) (va : α) (d pt : α × α × α)
    (up : Bool) (proj : Str) (x : ℤ), 0 < x → env.io.val va ≠ 360 → proj ∈ ["vta".toList, "vts".toList, "vth".toList] →
    has "cannot open".toList (getinfoText path (pre ++ [header env.io va d pt up proj])) = false →
    imgSize env.pint (dimsText env path (some (.image (pre ++ [header env.io va d pt up proj]) px))) = .ok (x, x) →
    solidAngle env none path (some (.image (pre ++ [header env.io va d pt up proj]) px))
      (some (.image (pre ++ [header env.io va d pt up proj]) px)) = .ok (env.io.val va)

/-- **C126** holds for angular views, and an explicit angle is used as it is. Missing: other kinds of view. -/
theorem C126_partial (env : Env α P) (ok : NumOk env.io) (path : Str) (pre : List Str) (px : P) (va : α)
    (d pt : α × α × α) (up : Bool) (x : ℤ) (hx : 0 < x) (h360 : env.io.val va ≠ 360)
    (hopen : has "cannot open".toList (getinfoText path (pre ++ [header env.io va d pt up "vta".toList])) = false)
    (hdim : imgSize env.pint (dimsText env path (some (.image (pre ++ [header env.io va d pt up "vta".toList]) px))) = .ok (x, x)) :
    solidAngle env none path (some (.image (pre ++ [header env.io va d pt up "vta".toList]) px))
      (some (.image (pre ++ [header env.io va d pt up "vta".toList]) px)) = .ok (env.io.val va) := by
  unfold solidAngle
  simp only
  rw [fileView_last env ok path pre px va d pt up x x hx.ne' hopen hdim]
  have hx' : (x : ℝ) ≠ 0 := by exact_mod_cast hx.ne'
  simp only [Except.map]
  rw [mul_div_assoc, div_self hx', mul_one]
  unfold View.new vangle
  simp only
  rw [if_neg h360]

theorem C126_explicit (env : Env α P) (va : ℝ) (path : Str) (a b : Option (File P)) :
    solidAngle env (some va) path a b = .ok va := rfl

/-- **C126** a header without an angular view counts as 180 degrees, whatever other view it has. -/
theorem C126_default (env : Env α P) (path : Str) (lines : List Str) (px : P) (b : Option (File P))
    (hopen : has "cannot open".toList (getinfoText path lines) = false)
    (h1 : has "VIEW= -vta".toList (getinfoText path lines) = false)
    (h2 : has "rvu -vta".toList (getinfoText path lines) = false) :
    solidAngle env none path (some (.image lines px)) b = .ok 180 := by
  unfold has at hopen h1 h2
  rw [Option.isSome_eq_false_iff, Option.isNone_iff_eq_none] at hopen h1 h2
  unfold solidAngle
  simp only
  have hv : viewTokens (getinfoText path lines) = .ok none := by
    unfold viewTokens
    rw [h1]
    simp only
    rw [h2]
  have : fileView env path (some (.image lines px)) b = .ok none := by
    unfold fileView getinfo hdr2vm
    simp only
    rw [hopen, hv]
    rfl
  rw [this]
  rfl

/-- a header line of another projection -/
def toySolid : List Str := ["#?RADIANCE".toList, header unary 100 (0, 1, 0) (0, 0, 0) false "vts".toList]

/-- **C126** is false: the 100 degrees of a header in the equisolid projection are ignored. -/
theorem C126_refuted : ¬ C126_statement := by
  intro h
  have h1 := h ℕ Unit toyEnv unary_ok "a.hdr".toList ["#?RADIANCE".toList] () 100 (0, 1, 0) (0, 0, 0) false "vts".toList 2
    (by decide) (by simp [toyEnv, unary]) (by decide) (by decide +kernel) (by decide +kernel)
  rw [C126_default toyEnv "a.hdr".toList _ () _ (by decide +kernel) (by decide +kernel) (by decide +kernel)] at h1
  injection h1 with h1
  simp only [toyEnv, unary] at h1
  norm_num at h1

/-! ## C128: the view used by `ang2uv` -/

/-- **C128**, the full claim: with `useview` the image is taken apart with the direction and size of the view in its header,
whatever its type. -/
def C128_statement : Prop :=
  ∀ (α P : Type) (env : Env α P), NumOk env.io → ∀ (path : Str) (pre : List Str) (px : P) (va : α) (d pt : α × α × α)
    (up : Bool) (proj : Str) (x : ℤ), 0 < x → proj ∈ ["vta".toList, "vts".toList, "vth".toList] →
    has "cannot open".toList (getinfoText path (pre ++ [header env.io va d pt up proj])) = false →
    imgSize env.pint (dimsText env path (some (.image (pre ++ [header env.io va d pt up proj]) px))) = .ok (x, x) →
    ang2uvView env true path (some (.image (pre ++ [header env.io va d pt up proj]) px))
      (some (.image (pre ++ [header env.io va d pt up proj]) px)) = .ok (View.new (vec env.io d) (env.io.val va))

/-- **C128** holds for angular views of square images; in general the size is scaled with the shape of the image. Missing: other
kinds of view. -/
theorem C128_partial (env : Env α P) (ok : NumOk env.io) (path : Str) (pre : List Str) (px : P) (va : α)
    (d pt : α × α × α) (up : Bool) (x y : ℤ) (hy : y ≠ 0)
    (hopen : has "cannot open".toList (getinfoText path (pre ++ [header env.io va d pt up "vta".toList])) = false)
    (hdim : imgSize env.pint (dimsText env path (some (.image (pre ++ [header env.io va d pt up "vta".toList]) px))) = .ok (x, y)) :
    ang2uvView env true path (some (.image (pre ++ [header env.io va d pt up "vta".toList]) px))
      (some (.image (pre ++ [header env.io va d pt up "vta".toList]) px)) =
        .ok (View.new (vec env.io d) (env.io.val va * x / y)) := by
  unfold ang2uvView
  rw [if_pos rfl, fileView_last env ok path pre px va d pt up x y hy hopen hdim]
  rfl

/-- **C128** without `useview` the header does not matter: the view is 180 degrees along y, and nothing is read. -/
theorem C128_unused (env : Env α P) (path : Str) (a b : Option (File P)) :
    ang2uvView env false path a b = .ok (View.new ⟨0, 1, 0⟩ 180) := rfl

theorem fileView_none (env : Env α P) (path : Str) (lines : List Str) (px : P) (b : Option (File P))
    (hopen : has "cannot open".toList (getinfoText path lines) = false)
    (h1 : has "VIEW= -vta".toList (getinfoText path lines) = false)
    (h2 : has "rvu -vta".toList (getinfoText path lines) = false) :
    fileView env path (some (.image lines px)) b = .ok none := by
  unfold has at hopen h1 h2
  rw [Option.isSome_eq_false_iff, Option.isNone_iff_eq_none] at hopen h1 h2
  have hv : viewTokens (getinfoText path lines) = .ok none := by
    unfold viewTokens
    rw [h1]
    simp only
    rw [h2]
  unfold fileView getinfo hdr2vm
  simp only
  rw [hopen, hv]
  rfl

/-- **C128** a header without an angular view counts as 180 degrees along y, whatever other view it has. -/
theorem C128_default (env : Env α P) (path : Str) (lines : List Str) (px : P) (b : Option (File P))
    (hopen : has "cannot open".toList (getinfoText path lines) = false)
    (h1 : has "VIEW= -vta".toList (getinfoText path lines) = false)
    (h2 : has "rvu -vta".toList (getinfoText path lines) = false) :
    ang2uvView env true path (some (.image lines px)) b = .ok (View.new ⟨0, 1, 0⟩ 180) := by
  unfold ang2uvView
  rw [if_pos rfl, fileView_none env path lines px b hopen h1 h2]
  rfl

/-- **C128** an unreadable image raises before anything is written. -/
theorem C128_missing (env : Env α P) (path : Str) (b : Option (File P)) :
    ang2uvView env true path none b = .error .FileNotFoundError := by
  unfold ang2uvView fileView getinfo hdr2vm
  simp only
  have h1 : (afterLast "cannot open".toList (path ++ ": cannot open\n".toList)).isSome = true := by
    change has _ _ = true
    rw [has_iff]
    exact ⟨path ++ ": ".toList, "\n".toList, by simp⟩
  rw [if_pos trivial, if_neg (by decide), if_pos h1]
  rfl

/-- **C128** is false: an equisolid view of 100 degrees along y is read as one of 180 degrees. -/
theorem C128_refuted : ¬ C128_statement := by
  intro h
  have h1 := h ℕ Unit toyEnv unary_ok "a.hdr".toList ["#?RADIANCE".toList] () 100 (0, 1, 0) (0, 0, 0) false "vts".toList 2
    (by decide) (by decide) (by decide +kernel) (by decide +kernel)
  rw [C128_default toyEnv "a.hdr".toList _ () _ (by decide +kernel) (by decide +kernel) (by decide +kernel)] at h1
  injection h1 with h1
  have h2 := congrArg View.va h1
  unfold View.new vangle at h2
  simp only [toyEnv, unary] at h2
  norm_num at h2

/-- **C128** end to end: the written square image is the one made with the view in the header. -/
theorem C128_written (env : Env α P) (ok : NumOk env.io) (hwr : WrapOk env.wrap) (conv : View → P → Except PyErr P)
    (stdout : Bool) (s : Store (File P)) (path : Str) (pre : List Str) (px : P) (va : α) (d pt : α × α × α) (up : Bool)
    (x : ℤ) (hx : x ≠ 0) (hs : s path = some (.image (pre ++ [header env.io va d pt up "vta".toList]) px))
    (hpl : Plain path (pre ++ [header env.io va d pt up "vta".toList]))
    (hopen : has "cannot open".toList (getinfoText path (pre ++ [header env.io va d pt up "vta".toList])) = false)
    (hdim : imgSize env.pint (dimsText env path (s path)) = .ok (x, x)) (f : File P)
    (h : alone s (ang2uvJob env conv true stdout path) = .write f) :
    ∃ img, conv (View.new (vec env.io d) (env.io.val va)) px = .ok img ∧ ∃ lines, f = .image lines img := by
  obtain ⟨v, img, pre', h1, h2, h3⟩ := C125_ang2uv env hwr conv true stdout s path _ px hs hpl f h
  rw [hs] at h1 hdim
  rw [C128_partial env ok path pre px va d pt up x x hx hopen hdim] at h1
  rw [mul_div_cancel_right₀ _ (Int.cast_ne_zero.2 hx)] at h1
  cases h1
  exact ⟨img, h2, _, h3⟩

/-- A header with a view of 100 degrees meets the hypotheses of `C128_partial`. -/
example : ang2uvView toyEnv true "a.hdr".toList
      (some (.image (["#?RADIANCE".toList] ++ [header toyEnv.io 100 (0, 1, 0) (0, 0, 0) false "vta".toList]) ()))
      (some (.image (["#?RADIANCE".toList] ++ [header toyEnv.io 100 (0, 1, 0) (0, 0, 0) false "vta".toList]) ())) =
    .ok (View.new (vec toyEnv.io (0, 1, 0)) (toyEnv.io.val 100 * ((2 : ℤ) : ℝ) / ((2 : ℤ) : ℝ))) :=
  C128_partial toyEnv unary_ok _ _ () 100 (0, 1, 0) (0, 0, 0) false 2 2 (by decide) (by decide +kernel) (by decide +kernel)

/-! ## C123 for the commands -/

theorem apart_map {C : Type} (mk : Str → Job C) (imgs : List Str) (hin : ∀ p, (mk p).inp = p)
    (hout : ∀ (i k : ℕ) (p q o : Str), imgs[i]? = some p → imgs[k]? = some q → (mk p).out = some o → (mk q).out = some o → i = k)
    (hsep : ∀ p ∈ imgs, ∀ q ∈ imgs, (mk p).out ≠ some q) : Apart (imgs.map mk) where
  outs := by
    intro i k j j' o hi hk hj hj'
    rw [List.getElem?_map, Option.map_eq_some_iff] at hi hk
    obtain ⟨p, hp, rfl⟩ := hi
    obtain ⟨q, hq, rfl⟩ := hk
    exact hout i k p q o hp hq hj hj'
  ins := by
    intro j hj j' hj'
    obtain ⟨p, hp, rfl⟩ := List.mem_map.mp hj
    obtain ⟨q, hq, rfl⟩ := List.mem_map.mp hj'
    rw [hin]
    exact hsep p hp q hq

/-- images of one kind of file, all different, none of them named like an output -/
structure Batch (stems : List Str) (tail : Str) : Prop where
  nodup : stems.Nodup
  fresh : ∀ s ∈ stems, ¬ tail <:+ s

theorem apart_stems {C : Type} (mk : Str → Job C) (stems : List Str) (tail : Str) (hb : Batch stems tail)
    (hin : ∀ p, (mk p).inp = p)
    (hout : ∀ p o, (mk p).out = some o → o = Names.stem p ++ tail ++ ".hdr".toList) :
    Apart ((stems.map (· ++ ".hdr".toList)).map mk) := by
  have hst : ∀ s : Str, Names.stem (s ++ ".hdr".toList) = s := fun s => Names.stem_dot s "hdr".toList (by decide)
  refine apart_map mk _ hin ?_ ?_
  · intro i k p q o hi hk hp hq
    rw [List.getElem?_map, Option.map_eq_some_iff] at hi hk
    obtain ⟨a, ha, rfl⟩ := hi
    obtain ⟨b, hb', rfl⟩ := hk
    have e1 := hout _ _ hp
    have e2 := hout _ _ hq
    rw [hst] at e1 e2
    rw [e1, List.append_assoc, List.append_assoc] at e2
    have hab : a = b := List.append_cancel_right e2
    subst hab
    have hi := (List.getElem?_eq_some_iff.mp ha)
    have hk := (List.getElem?_eq_some_iff.mp hb')
    exact (List.Nodup.getElem_inj_iff hb.nodup).mp (hi.2.trans hk.2.symm)
  · intro p hp q hq ho
    obtain ⟨a, ha, rfl⟩ := List.mem_map.mp hp
    obtain ⟨b, hb', rfl⟩ := List.mem_map.mp hq
    have e := hout _ _ ho
    rw [hst] at e
    have : b = a ++ tail := List.append_cancel_right e
    exact hb.fresh b hb' ⟨a, this.symm⟩

/-- **C123** `project`, `solid2ang`: different images `s.hdr` whose names do not end like an output: whatever the schedule,
the outputs hold what each image becomes on its own, nothing else changes and the answer is the list of outputs or the first
failure. -/
theorem C123_project (env : Env α P) (ang : P → Except PyErr P) (uv : View → P → Except PyErr P) (dir useview stdout : Bool)
    (blank : File P) (stems : List Str) (hb : Batch stems (if dir then "_ang".toList else "_uv".toList)) (s : Store (File P))
    (es : List (Ev (File P))) (jobs : List (Job (File P)))
    (hj : jobs = projectJobs env ang uv dir useview stdout (stems.map (· ++ ".hdr".toList)))
    (hov : Over jobs (runAll blank jobs s es)) :
    (runAll blank jobs s es).store = expected blank jobs s ∧ gather (runAll blank jobs s es).phase 0 jobs = answer s jobs := by
  refine C123_partial blank jobs s es ?_ hov
  rw [hj]
  unfold projectJobs
  generalize hb' : (stdout && (stems.map (· ++ ".hdr".toList)).length == 1) = std
  refine apart_stems _ stems _ hb ?_ ?_
  · intro p; cases dir <;> rfl
  · intro p o ho
    cases dir with
    | true =>
      simp only [if_true, uv2angJob] at ho ⊢
      cases std
      · simp only [Bool.false_eq_true, if_false, Option.some.injEq] at ho
        rw [← ho]; unfold Names.angName; simp
      · simp at ho
    | false =>
      simp only [Bool.false_eq_true, if_false, ang2uvJob] at ho ⊢
      cases std
      · simp only [Bool.false_eq_true, if_false, Option.some.injEq] at ho
        rw [← ho]; unfold Names.uvName; simp
      · simp at ho

theorem C123_solid2ang (env : Env α P) (conv : Bool → ℝ → P → Except PyErr P) (reverse : Bool) (viewangle : Option ℝ)
    (stdout : Bool) (blank : File P) (stems : List Str)
    (hb : Batch stems (if reverse then "_2vts".toList else "_2vta".toList)) (s : Store (File P))
    (es : List (Ev (File P))) (jobs : List (Job (File P)))
    (hj : jobs = solidJobs env conv reverse viewangle stdout (stems.map (· ++ ".hdr".toList)))
    (hov : Over jobs (runAll blank jobs s es)) :
    (runAll blank jobs s es).store = expected blank jobs s ∧ gather (runAll blank jobs s es).phase 0 jobs = answer s jobs := by
  refine C123_partial blank jobs s es ?_ hov
  rw [hj]
  unfold solidJobs
  generalize hb' : (stdout && (stems.map (· ++ ".hdr".toList)).length == 1) = std
  refine apart_stems _ stems _ hb (fun _ => rfl) ?_
  intro p o ho
  cases std
  · simp only [solidJob, Bool.false_eq_true, if_false, Option.some.injEq] at ho
    rw [← ho]; unfold Names.solidName; cases reverse <;> simp
  · simp [solidJob] at ho

/-- **C123** `align` with the suffix `cl`, which must not be empty -/
theorem C123_align (env : Env α P) (conv : P → Except PyErr P) (note : Str) (rotate : ℚ) (center : Option (List ℤ))
    (first stdout : Bool) (cl : Str) (hcl : Names.rotSuffix rotate center first = .ok cl) (blank : File P)
    (stems : List Str) (hb : Batch stems cl) (s : Store (File P))
    (es : List (Ev (File P))) (jobs : List (Job (File P)))
    (hj : jobs = alignJobs env conv note rotate center first stdout (stems.map (· ++ ".hdr".toList)))
    (hov : Over jobs (runAll blank jobs s es)) :
    (runAll blank jobs s es).store = expected blank jobs s ∧ gather (runAll blank jobs s es).phase 0 jobs = answer s jobs := by
  refine C123_partial blank jobs s es ?_ hov
  rw [hj]
  unfold alignJobs
  generalize hb' : (stdout && (stems.map (· ++ ".hdr".toList)).length == 1) = std
  have hn : ∀ p, Names.rotName rotate center first p = .ok (Names.stem p ++ cl ++ ".hdr".toList) := by
    intro p; unfold Names.rotName; rw [hcl]; rfl
  refine apart_stems _ stems _ hb ?_ ?_
  · intro p; unfold rotateJob; rw [hn p]
  · intro p o ho
    unfold rotateJob at ho
    rw [hn p] at ho
    cases std
    · simp only [Bool.false_eq_true, if_false, Option.some.injEq] at ho
      exact ho.symm
    · simp at ho

/-- a batch to which C123 applies -/
example : Batch ["a".toList, "b".toList, "uv".toList] "_uv".toList := ⟨by decide, by decide⟩

/-! ## C124: a failure that spoils the output -/

/-- a picture whose header starts with a continuation line -/
def oddImage : File Unit := .image ["#?RADIANCE".toList, "...  x".toList] ()

def turnJob : Job (File Unit) := rotateJob toyEnv .ok "aligned".toList 0 none true false "a.hdr".toList

/-- **C124** is false: `align` without options on a picture whose header starts with a continuation line raises when the
output, here the input itself, has already been emptied. -/
theorem C124_refuted : ¬ C124_statement := by
  intro h
  have h1 := h (File Unit) .blank turnJob (one "a.hdr".toList oddImage)
    [.step 0, .step 0, .step 0, .step 0] .IndexError (by
      have : turnJob.inp = "a.hdr".toList := by decide +kernel
      show (runAll File.blank [turnJob] (one "a.hdr".toList oddImage) _).phase 0 = _
      rfl)
  have h2 := congrFun h1 "a.hdr".toList
  revert h2
  decide +kernel

end Verif.Conv
