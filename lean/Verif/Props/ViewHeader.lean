import Verif.Model.ViewHeader
import Verif.Props.ViewMapper

/-! C17 view header text round trip. -/

namespace Verif.ViewHdr
open Verif.Py Verif.Geo Verif.Map Verif.Header

/-! ### text lemmas -/

theorem afterLast_skip {p : Char} {pat : Str} (a t : Str) (h : p ∉ a) :
    afterLast (p :: pat) (a ++ t) = afterLast (p :: pat) t := by
  induction a with
  | nil => rfl
  | cons c a ih =>
    have hc : p ≠ c := fun e => h (e ▸ List.mem_cons_self)
    have ha : p ∉ a := fun e => h (List.mem_cons_of_mem _ e)
    rw [List.cons_append, afterLast, ih ha]
    cases afterLast (p :: pat) t with
    | some t => rfl
    | none => simp [hc]

theorem afterLast_pre {pat : Str} (a : Str) {t u : Str} (h : afterLast pat t = some u) :
    afterLast pat (a ++ t) = some u := by
  induction a with
  | nil => exact h
  | cons c a ih => rw [List.cons_append, afterLast, ih]

/-- the text behind the last occurrence of a marker whose first letter does not recur in it -/
theorem afterLast_last {p : Char} {pat : Str} (a t : Str) (hp : p ∉ pat) (h : afterLast (p :: pat) t = none) :
    afterLast (p :: pat) (a ++ (p :: pat) ++ t) = some t := by
  rw [List.append_assoc]
  apply afterLast_pre
  rw [List.cons_append, afterLast, afterLast_skip _ _ hp, h]
  simp

theorem tokens_go_word (w rest cur : Str) (hw : ∀ c ∈ w, isSpace c = false) :
    tokens.go cur (w ++ rest) = tokens.go (w.reverse ++ cur) rest := by
  induction w generalizing cur with
  | nil => rfl
  | cons c w ih =>
    have hc := hw c List.mem_cons_self
    rw [List.cons_append, tokens.go]
    simp only [hc, Bool.false_eq_true, if_false]
    rw [ih _ fun x hx => hw x (List.mem_cons_of_mem _ hx)]
    simp

/-- a blank before every word -/
def spaced (ws : List Str) : Str := ws.flatMap (' ' :: ·)

theorem tokens_spaced_go (ws : List Str) (cur : Str) (h : ∀ w ∈ ws, w ≠ [] ∧ ∀ c ∈ w, isSpace c = false) :
    tokens.go cur (spaced ws) = (if cur.isEmpty then [] else [cur.reverse]) ++ ws := by
  induction ws generalizing cur with
  | nil => simp [spaced, tokens.go]
  | cons w ws ih =>
    obtain ⟨hne, hs⟩ := h w List.mem_cons_self
    have e : spaced (w :: ws) = ' ' :: (w ++ spaced ws) := by simp [spaced]
    have hsp : isSpace ' ' = true := by decide
    rw [e, tokens.go]
    simp only [hsp, if_true]
    have hr : tokens.go [] (w ++ spaced ws) = w :: ws := by
      rw [tokens_go_word _ _ _ hs, ih _ fun x hx => h x (List.mem_cons_of_mem _ hx)]
      simp [hne]
    rw [hr]
    cases cur <;> simp

theorem tokens_spaced (ws : List Str) (h : ∀ w ∈ ws, w ≠ [] ∧ ∀ c ∈ w, isSpace c = false) :
    tokens (spaced ws) = ws := by
  unfold tokens
  rw [tokens_spaced_go ws [] h]
  simp

theorem splitlines_go_line (l post cur : Str) (hl : ∀ c ∈ l, isLineBreak c = false) :
    ∃ r, splitlinesGo cur (l ++ '\n' :: post) = (cur.reverse ++ l) :: r := by
  induction l generalizing cur with
  | nil =>
    have h : isLineBreak '\n' = true := by decide
    refine ⟨splitlinesGo [] post, ?_⟩
    rw [List.nil_append, splitlinesGo]
    · simp [h]
    · intro cs hcs; exact absurd hcs (by decide)
  | cons c l ih =>
    have hc := hl c List.mem_cons_self
    obtain ⟨r, hr⟩ := ih (c :: cur) fun x hx => hl x (List.mem_cons_of_mem _ hx)
    refine ⟨r, ?_⟩
    rw [List.cons_append, splitlinesGo]
    · simp only [hc, Bool.false_eq_true, if_false, hr, List.reverse_cons, List.append_assoc, List.singleton_append]
    · intro cs hcs
      rw [hcs] at hc
      exact absurd hc (by decide)

theorem break_space (c : Char) (h : isSpace c = false) : isLineBreak c = false := by
  simp only [isSpace, isLineBreak, Bool.or_eq_false_iff, Bool.and_eq_false_iff, decide_eq_false_iff_not, beq_eq_false_iff_ne] at h ⊢
  omega

theorem firstTokens_spaced (ws : List Str) (post : Str) (h : ∀ w ∈ ws, w ≠ [] ∧ ∀ c ∈ w, isSpace c = false) :
    firstTokens (spaced ws ++ '\n' :: post) = .ok ws := by
  have hb : ∀ c ∈ spaced ws, isLineBreak c = false := by
    intro c hc
    obtain ⟨w, hw, hcw⟩ := List.mem_flatMap.mp hc
    rcases List.mem_cons.mp hcw with e | e
    · rw [e]; decide
    · exact break_space c ((h w hw).2 c e)
  obtain ⟨r, hr⟩ := splitlines_go_line (spaced ws) post [] hb
  unfold firstTokens splitlines
  rw [hr]
  simp only [List.reverse_nil, List.nil_append, tokens_spaced ws h]

/-! ### the header line -/

/-- words of the header line behind the projection -/
def words {α : Type} (io : NumIO α) (va : α) (d pt : α × α × α) (up : Bool) : List Str :=
  ["-vv".toList, io.fmt va, "-vh".toList, io.fmt va, "-vd".toList, io.fmt d.1, io.fmt d.2.1, io.fmt d.2.2,
    "-vp".toList, io.fmt pt.1, io.fmt pt.2.1, io.fmt pt.2.2, "-vu".toList]
    ++ (if up then ["0".toList, "1".toList, "0".toList] else ["0".toList, "0".toList, "1".toList])

theorem header_eq {α : Type} (io : NumIO α) (va : α) (d pt : α × α × α) (up : Bool) (proj : Str) :
    header io va d pt up proj = "VIEW= -".toList ++ proj ++ spaced (words io va d pt up) := by
  unfold header words spaced three
  cases up <;> simp only [Bool.false_eq_true, if_true, if_false, List.flatMap_append, List.flatMap_cons,
    List.flatMap_nil, List.append_assoc, List.append_nil, List.cons_append, List.nil_append] <;> rfl

theorem words_ok {α : Type} {io : NumIO α} (ok : NumOk io) (va : α) (d pt : α × α × α) (up : Bool) :
    ∀ w ∈ words io va d pt up, w ≠ [] ∧ ∀ c ∈ w, isSpace c = false := by
  have hf : ∀ x, io.fmt x ≠ [] ∧ ∀ c ∈ io.fmt x, isSpace c = false := fun x => ⟨ok.ne x, ok.nosp x⟩
  intro w hw
  simp only [words, List.mem_append, List.mem_cons, List.not_mem_nil, or_false] at hw
  have lit : ∀ s ∈ ["-vv".toList, "-vh".toList, "-vd".toList, "-vp".toList, "-vu".toList, "0".toList, "1".toList],
      s ≠ [] ∧ ∀ c ∈ s, isSpace c = false := by decide
  rcases hw with hw | hw
  · rcases hw with h | h | h | h | h | h | h | h | h | h | h | h | h <;> rw [h] <;>
      first | exact hf _ | exact lit _ (by simp)
  · split_ifs at hw <;> simp only [List.mem_cons, List.not_mem_nil, or_false] at hw <;>
      rcases hw with h | h | h <;> rw [h] <;> exact lit _ (by simp)

theorem words_noV {α : Type} {io : NumIO α} (ok : NumOk io) (va : α) (d pt : α × α × α) (up : Bool) :
    'V' ∉ spaced (words io va d pt up) := by
  intro h
  obtain ⟨w, hw, hc⟩ := List.mem_flatMap.mp h
  rcases List.mem_cons.mp hc with e | e
  · exact absurd e (by decide)
  · simp only [words, List.mem_append, List.mem_cons, List.not_mem_nil, or_false] at hw
    have lit : ∀ s ∈ ["-vv".toList, "-vh".toList, "-vd".toList, "-vp".toList, "-vu".toList, "0".toList, "1".toList],
      'V' ∉ s := by decide
    rcases hw with hw | hw
    · rcases hw with h | h | h | h | h | h | h | h | h | h | h | h | h <;> rw [h] at e <;>
        first | exact (ok.nov _).2 e | exact lit _ (by simp) e
    · split_ifs at hw <;> simp only [List.mem_cons, List.not_mem_nil, or_false] at hw <;>
        rcases hw with h | h | h <;> rw [h] at e <;> exact lit _ (by simp) e

theorem fmt_ne {α : Type} {io : NumIO α} (ok : NumOk io) (x : α) {s : Str} (h : 'v' ∈ s) : (io.fmt x == s) = false := by
  rw [beq_eq_false_iff_ne]
  intro e
  exact (ok.nov x).1 (e ▸ h)

theorem angle_words {α : Type} {io : NumIO α} (ok : NumOk io) (va : α) (d pt : α × α × α) (up : Bool) :
    angleAt io (words io va d pt up) = .ok va := by
  have h1 := fmt_ne ok va (s := "-vh".toList) (by decide)
  have e : index "-vh".toList (words io va d pt up) = some 2 := by
    unfold index words
    simp [List.findIdx?_cons] at h1 ⊢
    simp [h1]
  unfold angleAt
  rw [e]
  simp [numAt, words, ok.rt]

theorem dir_words {α : Type} {io : NumIO α} (ok : NumOk io) (va : α) (d pt : α × α × α) (up : Bool) :
    index "-vd".toList (words io va d pt up) = some 4 ∧ tripleAt io (words io va d pt up) 4 = .ok d := by
  have h1 := fmt_ne ok va (s := "-vd".toList) (by decide)
  constructor
  · unfold index words
    simp [List.findIdx?_cons] at h1 ⊢
    simp [h1]
  · simp [tripleAt, numAt, words, ok.rt]; rfl

theorem pt_words {α : Type} {io : NumIO α} (ok : NumOk io) (va : α) (d pt : α × α × α) (up : Bool) :
    index "-vp".toList (words io va d pt up) = some 8 ∧ tripleAt io (words io va d pt up) 8 = .ok pt := by
  have h1 := fun x => fmt_ne ok x (s := "-vp".toList) (by decide)
  constructor
  · unfold index words
    simp [List.findIdx?_cons] at h1 ⊢
    simp [h1]
  · simp [tripleAt, numAt, words, ok.rt]; rfl

/-- **C17** `img_size` reads width and height from what `getinfo -d` prints -/
theorem C17_img_size (pint : Str → Option ℤ) (name h w : Str) (y x : ℤ)
    (hn : name ≠ [] ∧ ∀ c ∈ name, isSpace c = false) (hh : h ≠ [] ∧ ∀ c ∈ h, isSpace c = false)
    (hw : w ≠ [] ∧ ∀ c ∈ w, isSpace c = false) (hX : 'X' ∉ h) (hY : 'Y' ∉ h) (py : pint h = some y)
    (px : pint w = some x) :
    imgSize pint (spaced [name, "-Y".toList, h, "+X".toList, w]) = .ok (x, y) := by
  have ht : tokens (spaced [name, "-Y".toList, h, "+X".toList, w]) = [name, "-Y".toList, h, "+X".toList, w] := by
    apply tokens_spaced
    intro s hs
    simp only [List.mem_cons, List.not_mem_nil, or_false] at hs
    rcases hs with e | e | e | e | e <;> rw [e]
    · exact hn
    · decide
    · exact hh
    · decide
    · exact hw
  unfold imgSize
  rw [ht]
  simp [sizeGo, py, px, hX, hY]

/-! ### the round trip -/

theorem norm1_norm1 (d : V3) : norm1 (norm1 d) = norm1 d := by
  by_cases h : √d.normSq = 0
  · have : norm1 d = d := by
      unfold norm1; rw [if_pos h]; simp [V3.divS]
    rw [this, this]
  · have hn : √d.normSq * √d.normSq = d.normSq := Real.mul_self_sqrt (by unfold V3.normSq; positivity)
    have hs : (norm1 d).normSq = 1 := by
      unfold norm1
      rw [if_neg h]
      generalize √d.normSq = s at *
      unfold V3.normSq at hn
      unfold V3.divS V3.normSq
      simp only
      rw [div_pow, div_pow, div_pow, ← add_div, ← add_div, ← hn, ← sq, div_self (pow_ne_zero 2 h)]
    generalize norm1 d = e at *
    unfold norm1
    rw [hs]
    simp [V3.divS]

theorem new_norm1 (d : V3) (va : ℝ) : View.new (norm1 d) va = View.new d va := by
  unfold View.new; rw [norm1_norm1]

/-- what is asked of the header text: behind the view line no other view line follows, and the text has none of
the phrases that announce a failure -/
structure TextOk (hd err post : Str) : Prop where
  err : afterLast "bad header!".toList err = none
  opn : afterLast "cannot open".toList hd = none
  last : afterLast "VIEW= -vta".toList post = none

theorem hdr2vm_read {α : Type} {io : NumIO α} (ok : NumOk io) (pint : Str → Option ℤ) (va : α) (d pt : α × α × α)
    (up : Bool) (pre post err dims : Str) (x y : ℤ) (hy : y ≠ 0)
    (ht : TextOk (pre ++ header io va d pt up "vta".toList ++ '\n' :: post) err post)
    (hdim : imgSize pint dims = .ok (x, y)) :
    hdr2vm io pint (pre ++ header io va d pt up "vta".toList ++ '\n' :: post) err dims
      = .ok (some (View.new (vec io d) (io.val va * x / y), vec io pt)) := by
  have hv : viewTokens (pre ++ header io va d pt up "vta".toList ++ '\n' :: post)
      = .ok (some (words io va d pt up)) := by
    have e : pre ++ header io va d pt up "vta".toList ++ '\n' :: post
        = pre ++ "VIEW= -vta".toList ++ (spaced (words io va d pt up) ++ '\n' :: post) := by
      rw [header_eq]
      have e2 : "VIEW= -vta".toList = "VIEW= -".toList ++ "vta".toList := by decide
      rw [e2]
      simp only [List.append_assoc]
    have e3 : "VIEW= -vta".toList = 'V' :: "IEW= -vta".toList := by decide
    have hrest : afterLast "VIEW= -vta".toList (spaced (words io va d pt up) ++ '\n' :: post) = none := by
      have h1 := ht.last
      rw [e3] at h1 ⊢
      rw [afterLast_skip _ _ (words_noV ok va d pt up)]
      have := afterLast_skip (p := 'V') (pat := "IEW= -vta".toList) ['\n'] post (by decide)
      rw [List.singleton_append] at this
      rw [this, h1]
    unfold viewTokens
    rw [e]
    rw [e3] at hrest ⊢
    rw [afterLast_last _ _ (by decide) hrest]
    simp only [firstTokens_spaced _ _ (words_ok ok va d pt up)]
    rfl
  unfold hdr2vm
  rw [ht.err, ht.opn, hv]
  obtain ⟨d1, d2⟩ := dir_words ok va d pt up
  obtain ⟨p1, p2⟩ := pt_words ok va d pt up
  have o1 : optTriple io "-vd".toList ⟨0, 1, 0⟩ (words io va d pt up) = .ok (vec io d) := by
    unfold optTriple; rw [d1]; simp only [d2]; rfl
  have o2 : optTriple io "-vp".toList ⟨0, 0, 0⟩ (words io va d pt up) = .ok (vec io pt) := by
    unfold optTriple; rw [p1]; simp only [p2]; rfl
  have hr : readView io (words io va d pt up) (imgSize pint dims)
      = .ok (View.new (vec io d) (io.val va * x / y), vec io pt) := by
    unfold readView
    rw [angle_words ok, o1, o2, hdim]
    simp only [bind, Except.bind, if_neg hy]
  simp only [Option.isSome_none, Bool.false_eq_true, if_false, bind, Except.bind, hr, pure, Except.pure]

/-- size of the image made for a view at resolution `r`, angularmixin.py 171-176: `(r * aspect, r)` -/
def imgDims (m : View) (r : ℤ) : ℤ × ℤ := if m.two then (2 * r, r) else (r, r)

/-- what C17 asks, for all the projections an angular view is drawn in -/
def C17_statement : Prop :=
  ∀ {α : Type} (io : NumIO α), NumOk io → ∀ (pint : Str → Option ℤ) (dir : V3) (angle : ℝ),
    (0 < angle ∧ angle ≤ 180 ∨ angle = 360) → ∀ (va : α) (d pt : α × α × α) (up : Bool) (proj : Str),
    proj ∈ ["vta".toList, "vte".toList, "vuv".toList] →
    io.val va = (View.new dir angle).va → vec io d = (View.new dir angle).dxyz →
    ∀ (pre post err dims : Str) (r : ℤ), 0 < r →
    TextOk (pre ++ header io va d pt up proj ++ '\n' :: post) err post →
    imgSize pint dims = .ok (imgDims (View.new dir angle) r) →
    hdr2vm io pint (pre ++ header io va d pt up proj ++ '\n' :: post) err dims
      = .ok (some (View.new dir angle, vec io pt))

/-- **C17** the header line of an angular fisheye view, whatever stands before it (other views included) and
whatever follows, is read back as the same mapper — direction, total angle, rotation — and view point, also for 360
degree views stored as 2:1 images. Missing for the full claim: views drawn in the other two projections
(`C17_refuted`). -/
theorem C17_round_trip_partial {α : Type} (io : NumIO α) (ok : NumOk io) (pint : Str → Option ℤ) (dir : V3)
    (angle : ℝ) (hang : 0 < angle ∧ angle ≤ 180 ∨ angle = 360) (va : α) (d pt : α × α × α) (up : Bool)
    (hva : io.val va = (View.new dir angle).va) (hd : vec io d = (View.new dir angle).dxyz)
    (pre post err dims : Str) (r : ℤ) (hr : 0 < r)
    (ht : TextOk (pre ++ header io va d pt up "vta".toList ++ '\n' :: post) err post)
    (hdim : imgSize pint dims = .ok (imgDims (View.new dir angle) r)) :
    hdr2vm io pint (pre ++ header io va d pt up "vta".toList ++ '\n' :: post) err dims
      = .ok (some (View.new dir angle, vec io pt)) := by
  have hr' : (r : ℝ) ≠ 0 := by exact_mod_cast hr.ne'
  have e1 : (imgDims (View.new dir angle) r).2 ≠ 0 := by unfold imgDims; split_ifs <;> exact hr.ne'
  rw [hdr2vm_read ok pint va d pt up pre post err dims (imgDims (View.new dir angle) r).1
    (imgDims (View.new dir angle) r).2 e1 ht hdim, hva, hd]
  have e2 : (View.new dir angle).dxyz = norm1 dir := rfl
  have e3 : (View.new dir angle).va = vangle angle := rfl
  rw [e2, new_norm1, e3]
  have key : vangle angle * ((imgDims (View.new dir angle) r).1 : ℝ) / ((imgDims (View.new dir angle) r).2 : ℝ)
      = angle := by
    rcases hang with ⟨h0, h1⟩ | h
    · have hne : angle ≠ 360 := by linarith
      have ht2 : (View.new dir angle).two = false := by simp [View.new, hne]
      unfold imgDims vangle
      rw [ht2]
      simp only [Bool.false_eq_true, if_false, if_neg hne]
      field_simp
    · have ht2 : (View.new dir angle).two = true := by simp [View.new, h]
      unfold imgDims vangle
      rw [ht2]
      simp only [if_true, h]
      push_cast
      field_simp
      norm_num
  rw [key]

/-! numbers printed in unary: the contract can be met -/

/-- unary digits -/
def unary : NumIO ℕ := ⟨fun n => List.replicate (n + 1) '1', fun s => some (s.length - 1), fun n => n⟩

theorem unary_ok : NumOk unary where
  rt := by intro x; simp [unary]
  ne := by intro x; simp [unary]
  nosp := by
    intro x c hc
    rw [List.eq_of_mem_replicate hc]; decide
  nov := by
    intro x
    constructor <;> intro h <;> exact absurd (List.eq_of_mem_replicate h) (by decide)

theorem norm1_y : norm1 ⟨0, 1, 0⟩ = ⟨0, 1, 0⟩ := by
  have : V3.normSq ⟨0, 1, 0⟩ = 1 := by simp [V3.normSq, V3.dot]
  unfold norm1; rw [this]; simp [V3.divS]

/-- number of occurrences is zero when a letter of the marker is missing from the text -/
theorem afterLast_absent {pat s : Str} {c : Char} (hp : c ∈ pat) (h : c ∉ s) : afterLast pat s = none := by
  induction s with
  | nil =>
    have : pat ≠ [] := List.ne_nil_of_mem hp
    simp [afterLast, this]
  | cons a s ih =>
    have h2 : c ∉ s := fun e => h (List.mem_cons_of_mem _ e)
    rw [afterLast, ih h2]
    simp only
    rw [if_neg]
    intro hpre
    exact h ((List.isPrefixOf_iff_prefix.mp hpre).subset hp)

theorem header_no (proj : Str) (c : Char) (hc : c ∉ proj) (h2 : c ∈ ['n', 'a']) (va : ℕ) (d pt : ℕ × ℕ × ℕ)
    (up : Bool) : c ∉ header unary va d pt up proj := by
  intro h
  have hu : ∀ x, c ∉ unary.fmt x := by
    intro x hx
    have := List.eq_of_mem_replicate hx
    rw [this] at h2
    exact absurd h2 (by decide)
  have h3 : c ∉ "VIEW= - -vv  -vh  -vd  -vp  -vu 0 1 0 0 0 1".toList := by
    rcases List.mem_cons.mp h2 with e | e
    · rw [e]; decide
    · rw [List.mem_singleton.mp e]; decide
  have h4 : ∀ x ∈ "VIEW= - -vv  -vh  -vd  -vp  -vu 0 1 0 0 0 1".toList, x ≠ c := fun x hx e => h3 (e ▸ hx)
  unfold header three at h
  simp only [List.mem_append, List.mem_cons] at h
  have sub : ∀ s ∈ ["VIEW= -".toList, " -vv ".toList, " -vh ".toList, " -vd".toList, " -vp".toList, " -vu ".toList,
      "0 1 0".toList, "0 0 1".toList], ∀ x ∈ s, x ∈ "VIEW= - -vv  -vh  -vd  -vp  -vu 0 1 0 0 0 1".toList := by decide
  have lit : ∀ s ∈ ["VIEW= -".toList, " -vv ".toList, " -vh ".toList, " -vd".toList, " -vp".toList, " -vu ".toList,
      "0 1 0".toList, "0 0 1".toList], c ∉ s := fun s hs hx => h3 (sub s hs c hx)
  have hsp : c ≠ ' ' := by
    rcases List.mem_cons.mp h2 with e | e
    · rw [e]; decide
    · rw [List.mem_singleton.mp e]; decide
  have hup : c ∉ (if up then "0 1 0".toList else "0 0 1".toList) := by
    split_ifs
    · exact lit _ (by simp)
    · exact lit _ (by simp)
  simp only [hu, hc, hup, hsp, lit "VIEW= -".toList (by simp), lit " -vv ".toList (by simp),
    lit " -vh ".toList (by simp), lit " -vd".toList (by simp), lit " -vp".toList (by simp),
    lit " -vu ".toList (by simp), or_self] at h

/-- the hypotheses of C17 are met by the 180 degree view along `y` in a `2 x 2` image -/
theorem C17_example :
    ∃ (va : ℕ) (d : ℕ × ℕ × ℕ) (dims : Str) (pint : Str → Option ℤ),
      unary.val va = (View.new ⟨0, 1, 0⟩ 180).va ∧ vec unary d = (View.new ⟨0, 1, 0⟩ 180).dxyz ∧
      imgSize pint dims = .ok (imgDims (View.new ⟨0, 1, 0⟩ 180) 2) ∧
      TextOk ([] ++ header unary va d d false "vta".toList ++ '\n' :: []) [] [] := by
  refine ⟨180, (0, 1, 0), spaced ["f".toList, "-Y".toList, "2".toList, "+X".toList, "2".toList], fun _ => some 2,
    ?_, ?_, ?_, ?_⟩
  · simp [unary, View.new, vangle]
  · rw [show (View.new ⟨0, 1, 0⟩ 180).dxyz = norm1 ⟨0, 1, 0⟩ from rfl, norm1_y]
    simp [vec, unary]
  · rw [C17_img_size _ _ _ _ 2 2 (by decide) (by decide) (by decide) (by decide) (by decide) rfl rfl]
    simp [imgDims, View.new]
  · refine ⟨by decide, ?_, by decide⟩
    apply afterLast_absent (c := 'n') (by decide)
    intro h
    simp only [List.nil_append, List.mem_append, List.mem_singleton] at h
    rcases h with h | h
    · exact header_no _ 'n' (by decide) (by decide) _ _ _ _ h
    · exact absurd h (by decide)

/-- a header line in the square projection is not recognised as a view -/
theorem C17_refuted : ¬ C17_statement := by
  intro h
  have hno : ∀ c ∈ ['n', 'a'], c ∉ [] ++ header unary 180 (0, 1, 0) (0, 1, 0) false "vuv".toList ++ '\n' :: [] := by
    intro c hc hm
    simp only [List.nil_append, List.mem_append, List.mem_singleton] at hm
    rcases hm with hm | hm
    · refine header_no _ c ?_ hc _ _ _ _ hm
      rcases List.mem_cons.mp hc with e | e
      · rw [e]; decide
      · rw [List.mem_singleton.mp e]; decide
    · rw [hm] at hc; exact absurd hc (by decide)
  have h1 := h unary unary_ok (fun _ => some 2) ⟨0, 1, 0⟩ 180 (by norm_num) 180 (0, 1, 0) (0, 1, 0) false
    "vuv".toList (by simp) (by simp [unary, View.new, vangle])
    (by rw [show (View.new ⟨0, 1, 0⟩ 180).dxyz = norm1 ⟨0, 1, 0⟩ from rfl, norm1_y]; simp [vec, unary])
    [] [] [] (spaced ["f".toList, "-Y".toList, "2".toList, "+X".toList, "2".toList]) 2 (by norm_num)
    ⟨by decide, afterLast_absent (c := 'n') (by decide) (hno 'n' (by simp)), by decide⟩
    (by
      rw [C17_img_size _ _ _ _ 2 2 (by decide) (by decide) (by decide) (by decide) (by decide) rfl rfl]
      simp [imgDims, View.new])
  have hv : viewTokens ([] ++ header unary 180 (0, 1, 0) (0, 1, 0) false "vuv".toList ++ '\n' :: []) = .ok none := by
    unfold viewTokens
    rw [afterLast_absent (c := 'a') (by decide) (hno 'a' (by simp)),
      afterLast_absent (c := 'a') (by decide) (hno 'a' (by simp))]
  unfold hdr2vm at h1
  rw [afterLast_absent (c := 'n') (by decide) (hno 'n' (by simp)), hv] at h1
  simp [afterLast, bind, Except.bind, pure, Except.pure] at h1

/-- **C17** a view file is read by its last `-vta` line; the angle is the printed one, so a 360 degree view comes
back as a 180 degree one -/
theorem C17_view_file {α : Type} (io : NumIO α) (ok : NumOk io) (va : α) (d pt : α × α × α) (up : Bool)
    (pre post : List Str) (hpost : ∀ l ∈ post, afterLast "-vta".toList l = none) :
    vfToVm io (pre ++ header io va d pt up "vta".toList :: post) = .ok (View.new (vec io d) (io.val va)) := by
  have hh : (afterLast "-vta".toList (header io va d pt up "vta".toList)).isSome = true := by
    rw [header_eq]
    have e : "VIEW= -".toList ++ "vta".toList ++ spaced (words io va d pt up)
        = "VIEW= ".toList ++ ("-vta".toList ++ spaced (words io va d pt up)) := by rfl
    rw [e]
    have : ∀ s : Str, (afterLast "-vta".toList ("-vta".toList ++ s)).isSome = true := by
      intro s
      have e2 : "-vta".toList = '-' :: "vta".toList := by decide
      rw [e2, List.cons_append, afterLast]
      cases afterLast ('-' :: "vta".toList) ("vta".toList ++ s) with
      | some t => rfl
      | none => simp
    obtain ⟨t, ht⟩ := Option.isSome_iff_exists.mp (this (spaced (words io va d pt up)))
    rw [afterLast_pre _ ht]; rfl
  have hf : (post.filter fun l => (afterLast "-vta".toList l).isSome) = [] := by
    rw [List.filter_eq_nil_iff]
    intro l hl
    rw [hpost l hl]; simp
  have htok : tokens (header io va d pt up "vta".toList)
      = "VIEW=".toList :: "-vta".toList :: words io va d pt up := by
    rw [header_eq]
    have e : "VIEW= -".toList ++ "vta".toList ++ spaced (words io va d pt up)
        = "VIEW=".toList ++ spaced ("-vta".toList :: words io va d pt up) := by rfl
    rw [e]
    unfold tokens
    rw [tokens_go_word _ _ _ (by decide), tokens_spaced_go]
    · rfl
    · intro w hw
      rcases List.mem_cons.mp hw with e | e
      · rw [e]; decide
      · exact words_ok ok va d pt up w e
  unfold vfToVm
  rw [List.filter_append, List.filter_cons_of_pos (p := fun l => (afterLast "-vta".toList l).isSome) hh, hf, List.getLast?_append]
  simp only [List.getLast?_singleton, Option.some_or, htok]
  have ha : angleAt io ("VIEW=".toList :: "-vta".toList :: words io va d pt up) = .ok va := by
    have h1 := fmt_ne ok va (s := "-vh".toList) (by decide)
    have e : index "-vh".toList ("VIEW=".toList :: "-vta".toList :: words io va d pt up) = some 4 := by
      unfold index words
      simp [List.findIdx?_cons] at h1 ⊢
      simp [h1]
    unfold angleAt
    rw [e]
    simp [numAt, words, ok.rt]
  have hd : index "-vd".toList ("VIEW=".toList :: "-vta".toList :: words io va d pt up) = some 6 ∧
      tripleAt io ("VIEW=".toList :: "-vta".toList :: words io va d pt up) 6 = .ok d := by
    have h1 := fmt_ne ok va (s := "-vd".toList) (by decide)
    constructor
    · unfold index words
      simp [List.findIdx?_cons] at h1 ⊢
      simp [h1]
    · simp [tripleAt, numAt, words, ok.rt]; rfl
  rw [ha, hd.1]
  simp only [hd.2, Except.map, bind, Except.bind, pure, Except.pure]

end Verif.ViewHdr
