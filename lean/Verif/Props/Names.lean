import Verif.Model.Names
import Mathlib.Tactic.Ring
import Mathlib.Tactic.Linarith
import Mathlib.Tactic.NormNum
/-! # Properties of the names of converted images: C119-C122 -/
namespace Verif.Names
open Verif.Py

/-! ## the stem of a path -/

/-- cutting at the last dot -/
theorem stem_dot (s e : Str) (he : '.' ∉ e) : stem (s ++ '.' :: e) = s := by
  unfold stem
  have h : (s ++ '.' :: e).reverse.dropWhile (· ≠ '.') = '.' :: s.reverse := by
    rw [List.reverse_append, List.reverse_cons, List.append_assoc,
      List.dropWhile_append_of_pos (by
        intro c hc
        have hc' : c ∈ e := List.mem_reverse.mp hc
        simp only [decide_eq_true_eq]
        rintro rfl
        exact he hc')]
    simp
  rw [h]; simp

theorem stem_nodot (p : Str) (h : '.' ∉ p) : stem p = p := by
  unfold stem
  have : p.reverse.dropWhile (· ≠ '.') = [] := by
    have e := List.dropWhile_append_of_pos (p := fun c : Char => decide (c ≠ '.')) (l₁ := p.reverse) (l₂ := []) (by
      intro c hc
      have hc' : c ∈ p := List.mem_reverse.mp hc
      simp only [decide_eq_true_eq]
      rintro rfl
      exact h hc')
    simpa using e
  rw [this]

/-- every path is its stem and an extension, or has no dot -/
theorem path_cases (p : Str) : '.' ∉ p ∨ ∃ s e, p = s ++ '.' :: e ∧ '.' ∉ e := by
  induction p with
  | nil => left; simp
  | cons c p ih =>
    rcases ih with h | ⟨s, e, rfl, he⟩
    · by_cases hc : c = '.'
      · right; exact ⟨[], p, by rw [hc]; rfl, h⟩
      · left; simp only [List.mem_cons, not_or]; exact ⟨fun e => hc e.symm, h⟩
    · right; exact ⟨c :: s, e, rfl, he⟩

/-! ## C119: the input is not the output -/

theorem name_ne (p t : Str) (c : Char) (hc : c ≠ '.') : stem p ++ c :: t ≠ p := by
  intro h
  rcases path_cases p with hp | ⟨s, e, rfl, he⟩
  · rw [stem_nodot p hp] at h
    have := congrArg List.length h
    simp at this
  · rw [stem_dot s e he] at h
    have h2 := List.append_cancel_left h
    injection h2 with h2 _
    exact hc h2

/-- **C119**, the full claim: without an explicit output no conversion writes to the file it reads. -/
def C119_statement : Prop :=
  ∀ p : Str, angName p ≠ p ∧ uvName p ≠ p ∧ (∀ r, solidName r p ≠ p) ∧
    ∀ rotate center first, rotName rotate center first p ≠ .ok p

/-- **C119** holds for the projections. -/
theorem C119_project_partial (p : Str) : angName p ≠ p ∧ uvName p ≠ p ∧ ∀ r, solidName r p ≠ p :=
  ⟨name_ne p _ '_' (by decide), name_ne p _ '_' (by decide), fun r => by
    unfold solidName; cases r
    · exact name_ne p _ '_' (by decide)
    · exact name_ne p _ '_' (by decide)⟩

theorem suffix_cases {rotate : ℚ} {center : Option (List ℤ)} {first : Bool} {cl : Str}
    (h : rotSuffix rotate center first = .ok cl) :
    (cl = [] ∧ rotate = 0 ∧ center = none) ∨ ((∃ t, cl = '_' :: t) ∧ ¬ (rotate = 0 ∧ center = none)) := by
  have hr : (rotate = 0 ∧ rotPart rotate = []) ∨ (rotate ≠ 0 ∧ ∃ t, rotPart rotate = '_' :: t) := by
    unfold rotPart
    by_cases h0 : rotate = 0
    · left; exact ⟨h0, by simp [h0]⟩
    · right; exact ⟨h0, by rw [if_pos h0]; exact ⟨_, rfl⟩⟩
  unfold rotSuffix at h
  match center, h with
  | none, h =>
    injection h with h
    rcases hr with ⟨h0, h1⟩ | ⟨h0, t, h1⟩
    · left
      rw [h1] at h
      exact ⟨by rw [← h]; cases first <;> rfl, h0, rfl⟩
    · right
      rw [h1] at h
      exact ⟨⟨t, by rw [← h]; cases first <;> simp⟩, fun hh => h0 hh.1⟩
  | some (x :: y :: l), h =>
    injection h with h
    right
    refine ⟨?_, fun hh => by cases hh.2⟩
    cases first
    · exact ⟨_, h.symm⟩
    · rcases hr with ⟨h0, h1⟩ | ⟨h0, t, h1⟩
      · rw [h1] at h; exact ⟨_, h.symm⟩
      · rw [h1] at h; exact ⟨_, h.symm⟩
  | some [], h => cases h
  | some [_], h => cases h

/-- **C119** for `align`: the output replaces the input exactly when neither rotation nor centre is given and the input
is called something `.hdr`. -/
theorem C119_align_iff (rotate : ℚ) (center : Option (List ℤ)) (first : Bool) (p : Str) :
    rotName rotate center first p = .ok p ↔ (rotate = 0 ∧ center = none ∧ ∃ s, p = s ++ ".hdr".toList) := by
  unfold rotName
  constructor
  · intro h
    match hs : rotSuffix rotate center first, h with
    | .ok cl, h =>
      injection h with h
      beta_reduce at h
      rcases suffix_cases hs with ⟨hcl, h0, hc⟩ | ⟨⟨t, hcl⟩, _⟩
      · refine ⟨h0, hc, stem p, ?_⟩
        rw [hcl, List.append_nil] at h
        exact h.symm
      · exfalso
        rw [hcl, List.append_assoc] at h
        exact name_ne p _ '_' (by decide) h
  · rintro ⟨rfl, rfl, s, rfl⟩
    have : rotSuffix 0 none first = .ok [] := by
      unfold rotSuffix rotPart centrePart; cases first <;> rfl
    rw [this]
    show Except.ok (stem (s ++ '.' :: "hdr".toList) ++ [] ++ ".hdr".toList) = _
    rw [stem_dot s _ (by decide), List.append_nil]

/-- **C119** is false: `align` without options writes over its input. -/
theorem C119_refuted : ¬ C119_statement := fun h =>
  (h "a.hdr".toList).2.2.2 0 none true ((C119_align_iff 0 none true _).mpr ⟨rfl, rfl, "a".toList, by decide⟩)

/-! ## C120: the output is next to the input -/

/-- the directory part of a path, up to and including the last slash -/
def dir (p : Str) : Str := (p.reverse.dropWhile (· ≠ '/')).reverse

theorem dir_append (d b : Str) (hb : '/' ∉ b) (hd : d = [] ∨ ∃ d', d = d' ++ ['/']) : dir (d ++ b) = d := by
  unfold dir
  rw [List.reverse_append, List.dropWhile_append_of_pos (by
    intro c hc
    have hc' : c ∈ b := List.mem_reverse.mp hc
    simp only [decide_eq_true_eq]
    rintro rfl
    exact hb hc')]
  rcases hd with rfl | ⟨d', rfl⟩
  · rfl
  · simp

/-- **C120**, the full claim: the output is in the directory of the input. -/
def C120_statement : Prop :=
  ∀ p : Str, dir (angName p) = dir p ∧ dir (uvName p) = dir p ∧ (∀ r, dir (solidName r p) = dir p) ∧
    ∀ rotate center first o, rotName rotate center first p = .ok o → dir o = dir p

theorem dir_tail (d b t : Str) (hd : d = [] ∨ ∃ d', d = d' ++ ['/']) (hb : '/' ∉ b) (hdot : '.' ∈ b ∨ '.' ∉ d)
    (ht : '/' ∉ t) : dir (stem (d ++ b) ++ t) = dir (d ++ b) := by
  rw [dir_append d b hb hd]
  rcases path_cases b with hn | ⟨s, e, rfl, he⟩
  · have hnd : '.' ∉ d ++ b := by
      rw [List.mem_append, not_or]; exact ⟨hdot.resolve_left hn, hn⟩
    rw [stem_nodot _ hnd, List.append_assoc]
    exact dir_append d (b ++ t) (by rw [List.mem_append, not_or]; exact ⟨hb, ht⟩) hd
  · rw [← List.append_assoc, stem_dot _ e he, List.append_assoc]
    refine dir_append d (s ++ t) ?_ hd
    rw [List.mem_append, not_or]
    exact ⟨fun h => hb (List.mem_append_left _ h), ht⟩

theorem digit_range {k : ℕ} (h : k < 10) : '0' ≤ digit k ∧ digit k ≤ '9' ∧ (digit k).toNat - 48 = k := by
  have : ∀ j < 10, '0' ≤ digit j ∧ digit j ≤ '9' ∧ (digit j).toNat - 48 = j := by decide
  exact this k h

def isDig (c : Char) : Prop := '0' ≤ c ∧ c ≤ '9'

theorem decGo_digits (f n : ℕ) : ∀ c ∈ decGo f n, isDig c := by
  induction f generalizing n with
  | zero => intro c hc; simp [decGo] at hc
  | succ f ih =>
    intro c hc
    rw [decGo] at hc
    split_ifs at hc with hn
    · rw [List.mem_singleton] at hc
      subst hc; exact ⟨(digit_range hn).1, (digit_range hn).2.1⟩
    · rw [List.mem_append] at hc
      rcases hc with hc | hc
      · exact ih _ c hc
      · rw [List.mem_singleton] at hc
        subst hc
        have := digit_range (k := n % 10) (by omega)
        exact ⟨this.1, this.2.1⟩

theorem dig_ne {c d : Char} (h : isDig c) (hd : ¬ isDig d) : c ≠ d := fun e => hd (e ▸ h)

theorem not_dig : ¬ isDig '-' ∧ ¬ isDig '_' ∧ ¬ isDig '/' ∧ ¬ isDig 'r' ∧ ¬ isDig '.' := by unfold isDig; decide

theorem dec_digits (n : ℕ) : ∀ c ∈ dec n, isDig c := decGo_digits _ _

theorem sdec_chars (z : ℤ) : ∀ c ∈ sdec z, isDig c ∨ c = '-' := by
  intro c hc
  unfold sdec at hc
  split_ifs at hc
  · rcases List.mem_cons.mp hc with h | h
    · exact Or.inr h
    · exact Or.inl (dec_digits _ c h)
  · exact Or.inl (dec_digits _ c hc)

theorem pad2_chars (z : ℤ) : ∀ c ∈ pad2 z, isDig c ∨ c = '-' := by
  intro c hc
  unfold pad2 at hc
  split_ifs at hc
  · rcases List.mem_cons.mp hc with h | h
    · left; rw [h]; unfold isDig; decide
    · exact sdec_chars z c h
  · exact sdec_chars z c hc

theorem suffix_noslash {rotate : ℚ} {center : Option (List ℤ)} {first : Bool} {cl : Str}
    (h : rotSuffix rotate center first = .ok cl) : '/' ∉ cl := by
  have hch : ∀ c : Char, isDig c ∨ c = '-' → c ≠ '/' := by
    rintro c (hc | rfl)
    · exact dig_ne hc not_dig.2.2.1
    · decide
  have hr : '/' ∉ rotPart rotate := by
    unfold rotPart
    split_ifs
    · intro hm
      simp only [List.mem_cons] at hm
      rcases hm with h | h | h
      · exact absurd h (by decide)
      · exact absurd h (by decide)
      · exact hch _ (pad2_chars _ _ h) rfl
    · simp
  have hc : ∀ c, centrePart center = .ok c → '/' ∉ c := by
    intro c hc
    match center, hc with
    | none, hc => injection hc with hc; rw [← hc]; simp
    | some (x :: y :: _), hc =>
      injection hc with hc
      rw [← hc]
      intro hm
      simp only [List.mem_cons, List.mem_append] at hm
      rcases hm with h | h | h | h
      · exact absurd h (by decide)
      · exact hch _ (sdec_chars _ _ h) rfl
      · exact absurd h (by decide)
      · exact hch _ (sdec_chars _ _ h) rfl
    | some [], hc => cases hc
    | some [_], hc => cases hc
  unfold rotSuffix at h
  match hcc : centrePart center, h with
  | .ok c, h =>
    injection h with h
    rw [← h]
    cases first
    · simp only [Bool.false_eq_true, if_false, List.mem_append, not_or]; exact ⟨hc c hcc, hr⟩
    · simp only [if_true, List.mem_append, not_or]; exact ⟨hr, hc c hcc⟩

/-- **C120** holds for every path whose file name has a dot, and for every path without a dot in its directories. -/
theorem C120_partial (d b : Str) (hd : d = [] ∨ ∃ d', d = d' ++ ['/']) (hb : '/' ∉ b) (hdot : '.' ∈ b ∨ '.' ∉ d) :
    dir (angName (d ++ b)) = d ∧ dir (uvName (d ++ b)) = d ∧ (∀ r, dir (solidName r (d ++ b)) = d) ∧
      ∀ rotate center first o, rotName rotate center first (d ++ b) = .ok o → dir o = d := by
  have key : ∀ t : Str, '/' ∉ t → dir (stem (d ++ b) ++ t) = d := by
    intro t ht
    rw [dir_tail d b t hd hb hdot ht, dir_append d b hb hd]
  refine ⟨key _ (by decide), key _ (by decide), fun r => ?_, ?_⟩
  · unfold solidName
    cases r
    · exact key _ (by decide)
    · exact key _ (by decide)
  · intro rotate center first o h
    unfold rotName at h
    match hs : rotSuffix rotate center first, h with
    | .ok cl, h =>
      injection h with h
      beta_reduce at h
      rw [← h, List.append_assoc]
      refine key _ ?_
      rw [List.mem_append, not_or]
      exact ⟨suffix_noslash hs, by decide⟩

/-- **C120** is false: a file without extension in a directory with a dot. -/
theorem C120_refuted : ¬ C120_statement := by
  intro h
  have := (h "run.1/img".toList).1
  revert this
  decide +kernel

example : angName "run.1/img".toList = "run_ang.hdr".toList := by decide +kernel

example : ("a/".toList = [] ∨ ∃ d', "a/".toList = d' ++ ['/']) ∧ '/' ∉ "b.c.hdr".toList ∧
    ('.' ∈ "b.c.hdr".toList ∨ '.' ∉ "a/".toList) := ⟨Or.inr ⟨['a'], by decide⟩, by decide, by decide⟩

/-! ## C121: different inputs have different outputs -/

/-- **C121**, the full claim. -/
def C121_statement : Prop :=
  ∀ p q : Str, p ≠ q → angName p ≠ angName q ∧ uvName p ≠ uvName q ∧ (∀ r, solidName r p ≠ solidName r q) ∧
    ∀ rotate center first o, rotName rotate center first p = .ok o → rotName rotate center first q ≠ .ok o

theorem out_eq_iff (p q : Str) :
    (angName p = angName q ↔ stem p = stem q) ∧ (uvName p = uvName q ↔ stem p = stem q) ∧
      ∀ r, (solidName r p = solidName r q ↔ stem p = stem q) :=
  ⟨⟨fun h => List.append_cancel_right h, fun h => by unfold angName; rw [h]⟩,
    ⟨fun h => List.append_cancel_right h, fun h => by unfold uvName; rw [h]⟩,
    fun r => ⟨fun h => by unfold solidName at h; exact List.append_cancel_right h, fun h => by unfold solidName; rw [h]⟩⟩

/-- **C121** holds for paths with the same extension. -/
theorem C121_partial (s t e : Str) (he : '.' ∉ e) (hne : s ++ '.' :: e ≠ t ++ '.' :: e) :
    angName (s ++ '.' :: e) ≠ angName (t ++ '.' :: e) ∧ uvName (s ++ '.' :: e) ≠ uvName (t ++ '.' :: e) ∧
    (∀ r, solidName r (s ++ '.' :: e) ≠ solidName r (t ++ '.' :: e)) ∧
    ∀ rotate center first o, rotName rotate center first (s ++ '.' :: e) = .ok o →
      rotName rotate center first (t ++ '.' :: e) ≠ .ok o := by
  have hst : s ≠ t := fun h => hne (by rw [h])
  have hs : stem (s ++ '.' :: e) ≠ stem (t ++ '.' :: e) := by rw [stem_dot s e he, stem_dot t e he]; exact hst
  obtain ⟨h1, h2, h3⟩ := out_eq_iff (s ++ '.' :: e) (t ++ '.' :: e)
  refine ⟨fun h => hs (h1.mp h), fun h => hs (h2.mp h), fun r h => hs ((h3 r).mp h), ?_⟩
  intro rotate center first o hp hq
  unfold rotName at hp hq
  match hsx : rotSuffix rotate center first, hp, hq with
  | .ok cl, hp, hq =>
    injection hp with hp
    injection hq with hq
    rw [← hq] at hp
    exact hs (List.append_cancel_right (List.append_cancel_right hp))

/-- **C121** is false: the same name with two extensions. -/
theorem C121_refuted : ¬ C121_statement := by
  intro h
  have := (h "a.hdr".toList "a.pic".toList (by decide)).1
  revert this
  decide +kernel

example : "a".toList ++ '.' :: "hdr".toList ≠ "b".toList ++ '.' :: "hdr".toList ∧ '.' ∉ "hdr".toList := by decide

/-! ## C122: different settings of `align` have different outputs -/

/-- the number written by a list of digits -/
def undec (s : Str) : ℕ := s.foldl (fun a c => a * 10 + (c.toNat - 48)) 0

theorem undec_dec (f n : ℕ) (h : n < f) : undec (decGo f n) = n := by
  induction f generalizing n with
  | zero => omega
  | succ f ih =>
    rw [decGo]
    split_ifs with hn
    · unfold undec
      simp [(digit_range hn).2.2]
    · unfold undec at ih ⊢
      rw [List.foldl_append, ih (n / 10) (by omega)]
      simp only [List.foldl_cons, List.foldl_nil]
      rw [(digit_range (k := n % 10) (by omega)).2.2]
      omega

theorem dec_inj {m n : ℕ} (h : dec m = dec n) : m = n := by
  rw [← undec_dec (m + 1) m (by omega), ← undec_dec (n + 1) n (by omega)]
  exact congrArg undec h

theorem dec_ne (n : ℕ) : dec n ≠ [] := by
  unfold dec; rw [decGo]; split_ifs <;> simp

theorem sdec_inj {x y : ℤ} (h : sdec x = sdec y) : x = y := by
  have key : ∀ m n : ℕ, '-' :: dec m ≠ dec n := by
    intro m n e
    exact dig_ne (dec_digits n '-' (by rw [← e]; simp)) not_dig.1 rfl
  unfold sdec at h
  split_ifs at h with h1 h2 h2
  · injection h with _ h
    have := dec_inj h; omega
  · exact absurd h (key _ _)
  · exact absurd h.symm (key _ _)
  · have := dec_inj h; omega

theorem undec_zero (s : Str) : undec ('0' :: s) = undec s := by
  unfold undec; simp

theorem undec_pad (z : ℤ) (hz : 0 ≤ z) : undec (pad2 z) = z.natAbs := by
  have h1 : undec (sdec z) = z.natAbs := by
    unfold sdec; rw [if_neg (by omega)]; exact undec_dec _ _ (by omega)
  unfold pad2
  split_ifs
  · rw [undec_zero, h1]
  · exact h1

theorem pad2_inj {x y : ℤ} (h : pad2 x = pad2 y) : x = y := by
  have neg : ∀ z : ℤ, z < 0 → pad2 z = '-' :: dec z.natAbs := by
    intro z hz; unfold pad2 sdec; rw [if_neg (by omega), if_pos hz]
  have pos : ∀ z : ℤ, 0 ≤ z → '-' ∉ pad2 z := by
    intro z hz hm
    have hd : ∀ c ∈ sdec z, isDig c := by
      unfold sdec; rw [if_neg (by omega)]; exact dec_digits _
    unfold pad2 at hm
    split_ifs at hm
    · rcases List.mem_cons.mp hm with e | e
      · exact absurd e (by decide)
      · exact dig_ne (hd _ e) not_dig.1 rfl
    · exact dig_ne (hd _ hm) not_dig.1 rfl
  rcases lt_or_ge x 0 with hx | hx <;> rcases lt_or_ge y 0 with hy | hy
  · rw [neg x hx, neg y hy] at h
    injection h with _ h
    have := dec_inj h; omega
  · exfalso; apply pos y hy; rw [← h, neg x hx]; simp
  · exfalso; apply pos x hx; rw [h, neg y hy]; simp
  · have := congrArg undec h
    rw [undec_pad x hx, undec_pad y hy] at this
    omega

/-- digits up to a mark are read off uniquely -/
theorem digits_split {a b r s : Str} (ha : ∀ c ∈ a, isDig c) (hb : ∀ c ∈ b, isDig c)
    (h : a ++ '-' :: r = b ++ '-' :: s) : a = b ∧ r = s := by
  induction a generalizing b with
  | nil =>
    match b, hb, h with
    | [], _, h => injection h with _ h; exact ⟨rfl, h⟩
    | c :: b, hb, h =>
      injection h with h _
      exact absurd h.symm (dig_ne (hb c List.mem_cons_self) not_dig.1)
  | cons c a ih =>
    match b, hb, h with
    | [], _, h => injection h with h _; exact absurd h (dig_ne (ha c List.mem_cons_self) not_dig.1)
    | d :: b, hb, h =>
      injection h with h1 h2
      obtain ⟨e1, e2⟩ := ih (fun x hx => ha x (List.mem_cons_of_mem _ hx)) (fun x hx => hb x (List.mem_cons_of_mem _ hx)) h2
      exact ⟨by rw [h1, e1], e2⟩

theorem centre_inj {x y x' y' : ℤ} (h : sdec x ++ '-' :: sdec y = sdec x' ++ '-' :: sdec y') : x = x' ∧ y = y' := by
  have first : ∀ (m n : ℕ) (r s : Str), '-' :: (dec m ++ '-' :: r) ≠ dec n ++ '-' :: s := by
    intro m n r s e
    match hd : dec n, dec_ne n with
    | c :: t, _ =>
      rw [hd] at e
      injection e with e _
      exact dig_ne (dec_digits n c (by rw [hd]; simp)) not_dig.1 e.symm
  suffices sdec x = sdec x' ∧ sdec y = sdec y' from ⟨sdec_inj this.1, sdec_inj this.2⟩
  generalize sdec y = r at *
  generalize sdec y' = s at *
  unfold sdec at h ⊢
  split_ifs at h ⊢
  · injection h with _ h
    obtain ⟨e1, e2⟩ := digits_split (dec_digits _) (dec_digits _) h
    exact ⟨by rw [e1], e2⟩
  · exact absurd h (first _ _ _ _)
  · exact absurd h.symm (first _ _ _ _)
  · exact digits_split (dec_digits _) (dec_digits _) h

/-- parts joined by underscores are read off uniquely -/
theorem parts_inj (ps qs : List Str) (hp : ∀ p ∈ ps, '_' ∉ p) (hq : ∀ q ∈ qs, '_' ∉ q)
    (h : ps.flatMap ('_' :: ·) = qs.flatMap ('_' :: ·)) : ps = qs := by
  have split : ∀ (a b r s : Str), '_' ∉ a → '_' ∉ b → (r = [] ∨ ∃ t, r = '_' :: t) → (s = [] ∨ ∃ t, s = '_' :: t) →
      a ++ r = b ++ s → a = b ∧ r = s := by
    intro a
    induction a with
    | nil =>
      intro b r s _ hb hr hs e
      match b, hb, e with
      | [], _, e => exact ⟨rfl, e⟩
      | c :: b, hb, e =>
        rcases hr with rfl | ⟨t, rfl⟩
        · simp at e
        · injection e with e _; exact absurd (by rw [e]; simp) hb
    | cons c a ih =>
      intro b r s ha hb hr hs e
      match b, hb, e with
      | [], _, e =>
        rcases hs with rfl | ⟨t, rfl⟩
        · simp at e
        · injection e with e _; exact absurd (by rw [e]; simp) ha
      | d :: b, hb, e =>
        injection e with e1 e2
        obtain ⟨f1, f2⟩ := ih b r s (fun h => ha (List.mem_cons_of_mem _ h)) (fun h => hb (List.mem_cons_of_mem _ h)) hr hs e2
        exact ⟨by rw [e1, f1], f2⟩
  have shape : ∀ l : List Str, l.flatMap ('_' :: ·) = [] ∨ ∃ t, l.flatMap ('_' :: ·) = '_' :: t := by
    intro l
    cases l with
    | nil => left; rfl
    | cons a l => right; exact ⟨a ++ l.flatMap ('_' :: ·), by simp⟩
  induction ps generalizing qs with
  | nil =>
    cases qs with
    | nil => rfl
    | cons q qs => simp at h
  | cons p ps ih =>
    cases qs with
    | nil => simp at h
    | cons q qs =>
      simp only [List.flatMap_cons, List.cons_append] at h
      injection h with _ h
      obtain ⟨e1, e2⟩ := split p q _ _ (hp p List.mem_cons_self) (hq q List.mem_cons_self) (shape ps) (shape qs) h
      rw [e1, ih qs (fun x hx => hp x (List.mem_cons_of_mem _ hx)) (fun x hx => hq x (List.mem_cons_of_mem _ hx)) e2]

/-- the parts of the suffix -/
def rotL (a : ℤ) : List Str := if a ≠ 0 then ['r' :: pad2 a] else []
def cenL : Option (ℤ × ℤ) → List Str
  | none => []
  | some (x, y) => [sdec x ++ '-' :: sdec y]
def partsL (a : ℤ) (c : Option (ℤ × ℤ)) (first : Bool) : List Str := if first then rotL a ++ cenL c else cenL c ++ rotL a

/-- a centre of two numbers -/
def two (c : Option (ℤ × ℤ)) : Option (List ℤ) := c.map fun q => [q.1, q.2]

theorem trunc_int (a : ℤ) : truncQ (a : ℚ) = a := by unfold truncQ; simp

theorem suffix_parts (a : ℤ) (c : Option (ℤ × ℤ)) (first : Bool) :
    rotSuffix (a : ℚ) (two c) first = .ok ((partsL a c first).flatMap ('_' :: ·)) := by
  have hr : rotPart (a : ℚ) = (rotL a).flatMap ('_' :: ·) := by
    unfold rotPart rotL
    by_cases h : a = 0
    · simp [h]
    · rw [if_pos (by exact_mod_cast h), if_pos h, trunc_int]; simp
  have hc : centrePart (two c) = .ok ((cenL c).flatMap ('_' :: ·)) := by
    cases c with
    | none => rfl
    | some q => simp [two, centrePart, cenL]
  unfold rotSuffix partsL
  rw [hr, hc]
  cases first <;> simp [Except.map]

theorem parts_nounder (a : ℤ) (c : Option (ℤ × ℤ)) (first : Bool) : ∀ p ∈ partsL a c first, '_' ∉ p := by
  have hch : ∀ c : Char, isDig c ∨ c = '-' → c ≠ '_' := by
    rintro c (hc | rfl)
    · exact dig_ne hc not_dig.2.1
    · decide
  have hr : ∀ p ∈ rotL a, '_' ∉ p := by
    intro p hp
    unfold rotL at hp
    split_ifs at hp
    · rw [List.mem_singleton] at hp
      subst hp
      intro hm
      rcases List.mem_cons.mp hm with h | h
      · exact absurd h (by decide)
      · exact hch _ (pad2_chars _ _ h) rfl
    · simp at hp
  have hc : ∀ p ∈ cenL c, '_' ∉ p := by
    intro p hp
    cases c with
    | none => simp [cenL] at hp
    | some q =>
      simp only [cenL, List.mem_singleton] at hp
      subst hp
      intro hm
      simp only [List.mem_append, List.mem_cons] at hm
      rcases hm with h | h | h
      · exact hch _ (sdec_chars _ _ h) rfl
      · exact absurd h (by decide)
      · exact hch _ (sdec_chars _ _ h) rfl
  intro p hp
  unfold partsL at hp
  cases first
  · simp only [Bool.false_eq_true, if_false, List.mem_append] at hp
    exact hp.elim (hc p) (hr p)
  · simp only [if_true, List.mem_append] at hp
    exact hp.elim (hr p) (hc p)

/-- **C122**, the full claim: two settings that write the same file for some input are the same settings (the order does
not matter when only one of rotation and centre is given). -/
def C122_statement : Prop :=
  ∀ (p o : Str) (a a' : ℚ) (c c' : Option (List ℤ)) (f f' : Bool),
    rotName a c f p = .ok o → rotName a' c' f' p = .ok o → a = a' ∧ c = c' ∧ (a ≠ 0 → c ≠ none → f = f')

theorem name_suffix {p o : Str} {a a' : ℚ} {c c' : Option (List ℤ)} {f f' : Bool} (h : rotName a c f p = .ok o)
    (h' : rotName a' c' f' p = .ok o) : rotSuffix a c f = rotSuffix a' c' f' := by
  unfold rotName at h h'
  match hs : rotSuffix a c f, hs' : rotSuffix a' c' f', h, h' with
  | .ok s, .ok s', h, h' =>
    injection h with h
    injection h' with h'
    rw [← h'] at h
    rw [List.append_cancel_left (List.append_cancel_right h)]

/-- **C122** holds for whole angles and centres of two numbers. -/
theorem C122_partial (p o : Str) (a a' : ℤ) (c c' : Option (ℤ × ℤ)) (f f' : Bool)
    (h : rotName a (two c) f p = .ok o) (h' : rotName a' (two c') f' p = .ok o) :
    a = a' ∧ c = c' ∧ (a ≠ 0 → c ≠ none → f = f') := by
  have hs := name_suffix h h'
  rw [suffix_parts, suffix_parts] at hs
  injection hs with hs
  have hL := parts_inj _ _ (parts_nounder a c f) (parts_nounder a' c' f') hs
  -- a centre part does not start with the letter of a rotation part
  have hno : ∀ (z x y : ℤ), 'r' :: pad2 z ≠ sdec x ++ '-' :: sdec y := by
    intro z x y e
    have hm : ∀ c ∈ sdec x ++ '-' :: sdec y, isDig c ∨ c = '-' := by
      intro c hc
      simp only [List.mem_append, List.mem_cons] at hc
      rcases hc with h | h | h
      · exact sdec_chars _ _ h
      · exact Or.inr h
      · exact sdec_chars _ _ h
    rcases hm 'r' (by rw [← e]; simp) with h | h
    · exact not_dig.2.2.2.1 h
    · exact absurd h (by decide)
  unfold partsL rotL at hL
  rcases c with _ | ⟨x, y⟩ <;> rcases c' with _ | ⟨x', y'⟩ <;> by_cases ha : a = 0 <;> by_cases ha' : a' = 0 <;>
    cases f <;> cases f' <;> simp [ha, ha', cenL] at hL ⊢ <;>
    first
    | exact pad2_inj hL
    | exact absurd hL (hno _ _ _)
    | exact absurd hL.symm (hno _ _ _)
    | exact centre_inj hL
    | exact absurd hL.1 (hno _ _ _)
    | exact absurd hL.1.symm (hno _ _ _)
    | exact ⟨pad2_inj hL.1, centre_inj hL.2⟩
    | exact ⟨pad2_inj hL.2, centre_inj hL.1⟩

/-- **C122** is false: angles are cut to whole degrees in the name. -/
theorem C122_refuted : ¬ C122_statement := by
  intro h
  have := (h "a.hdr".toList "a_r30.hdr".toList (301 / 10) (309 / 10) none none true true (by decide +kernel)
    (by decide +kernel)).1
  norm_num at this

/-- **C122** the target of a four number alignment is not in the name either. -/
theorem C122_target (p : Str) (a : ℚ) (f : Bool) (x y u v u' v' : ℤ) :
    rotName a (some [x, y, u, v]) f p = rotName a (some [x, y, u', v']) f p := rfl

/-- **C122** a centre of fewer than two numbers raises IndexError before anything is read or written. -/
theorem C122_short_centre (p : Str) (a : ℚ) (f : Bool) (l : List ℤ) (hl : l.length < 2) :
    rotName a (some l) f p = .error .IndexError := by
  match l, hl with
  | [], _ => rfl
  | [_], _ => rfl

example : rotName (-5) (some [12, -3]) false "x/img.hdr".toList = .ok "x/img_12--3_r-5.hdr".toList := by decide +kernel
example : rotName 5 none true "x/img.hdr".toList = .ok "x/img_r05.hdr".toList := by decide +kernel

end Verif.Names
