import Verif.Lemmas.Header
namespace Verif.Header
open Verif.Py Forest

/-! ## the loop body -/

/-- A line that `_preprocess` keeps: not a section, view, pvalue or format line. -/
def isKept (h : Str) : Prop :=
  isSectionText (cleanLine h) = false ∧ (keyVal (cleanLine h)).1 ≠ "pvalue".toList ∧
  (keyVal (cleanLine h)).1 ≠ "FORMAT".toList ∧ (keyVal (cleanLine h)).1 ≠ "VIEW".toList

instance (h : Str) : Decidable (isKept h) := by unfold isKept; infer_instance

theorem step_kept (st : St) (h : Str) (hk : isKept h) :
    step st h = (keepStep st (cleanLine h) (lineDepth h)).map (fun s => { s with lastkey := (keyVal (cleanLine h)).1 }) := by
  unfold step
  rw [if_neg (by simp [hk.1]), if_neg (not_or.2 ⟨hk.2.1, hk.2.2.1⟩), if_neg hk.2.2.2]
  cases keepStep st (cleanLine h) (lineDepth h) <;> rfl

/-- Text predicates that a line has to provide for the tree invariant `all P Q` to survive. -/
structure LineOk (P Q : Str → Prop) (h : Str) : Prop where
  name : isSectionText (cleanLine h) = true → Q (sectionName (cleanLine h))
  cl : isSectionText (cleanLine h) = false → cleanLine h ≠ [] → P (cleanLine h)
  norm : isSectionText (cleanLine h) = false → P (norm (cleanLine h))
  ext : isSectionText (cleanLine h) = false → ∀ s, P s → P (s ++ ' ' :: lstrip (keyVal (cleanLine h)).2)

theorem norm_ne_nil (cl : Str) : norm cl ≠ [] := by simp [norm]

theorem keepStep_spec (st : St) (hw : Wf st) (cl : Str) (d : Nat) (hvals : [] ∉ st.vals) :
    (∀ e, keepStep st cl d = .error e →
      e = .IndexError ∧ (keyVal cl).1 = "...".toList ∧ getAt st.cs.length st.files = some .nil) ∧
    (∀ st', keepStep st cl d = .ok st' → Wf st' ∧ [] ∉ st'.vals ∧ Grow st.files st'.files ∧ st'.view = st.view ∧
      (∃ s ∈ strs st'.files, norm cl <:+: s ∨ cl <:+: s ∨
        (((keyVal cl).1 = "...".toList ∨ (keyVal cl).1 = st.lastkey) ∧ lstrip (keyVal cl).2 <:+: s)) ∧
      (∀ P Q : Str → Prop, (cl ≠ [] → P cl) → P (norm cl) → (∀ s, P s → P (s ++ ' ' :: lstrip (keyVal cl).2)) →
        all P Q st.files → all P Q st'.files)) := by
  unfold keepStep
  split
  · rename_i hcond
    obtain ⟨h1, h2⟩ := continueStep_spec st hw (keyVal cl).2
    by_cases hn : getAt st.cs.length st.files = some .nil
    · rw [h1 hn]
      refine ⟨fun e he => ?_, fun st' h => by cases h⟩
      injection he with he
      refine ⟨he.symm, ?_, hn⟩
      rcases hcond with h | h
      · exact h
      · exact absurd hn h.2
    · obtain ⟨st1, e1, e2, e3, e4, ⟨s, e5, e6⟩, e7⟩ := h2 hn
      rw [e1]
      refine ⟨fun e he => by (cases he), fun st' h => ?_⟩
      have hvv : st1.vals ≠ [] ∧ [] ∉ st1.vals := by
        unfold continueStep at e1
        cases hx : Forest.modAt st.cs.length (Forest.extendLast (' ' :: lstrip (keyVal cl).2)) st.files with
        | error e => rw [hx] at e1; cases e1
        | ok F =>
          rw [hx] at e1
          cases hv : st.vals with
          | nil => rw [hv] at e1; cases e1
          | cons v vs =>
            rw [hv] at e1
            injection e1 with e1
            subst e1
            refine ⟨by simp, ?_⟩
            rw [hv] at hvals
            simp only [List.mem_cons, not_or] at hvals ⊢
            exact ⟨by simp, hvals.2⟩
      injection h with h
      subst h
      refine ⟨e2, hvv.2, e3, e4, ⟨s, e5, Or.inr (Or.inr ⟨?_, e6⟩)⟩, fun P Q _ _ h => e7 P Q h⟩
      rcases hcond with h | h
      · exact Or.inl h
      · exact Or.inr h.1
  · split
    · rename_i hcond hmem
      obtain ⟨st1, e1, e2, e3, e4, e5, e6⟩ := promoteStep_spec st hw cl hmem
      have hcl : cl ≠ [] := by rintro rfl; exact hvals hmem
      rw [e1]
      refine ⟨fun e he => by (cases he), fun st' h => ?_⟩
      have hvv : st1.vals = st.vals := by
        unfold promoteStep at e1
        split at e1
        · injection e1 with e1; rw [← e1]
        · rename_i idx _
          cases hx : promote cl idx (pop cl [] 0 st.files).2 with
          | error e => rw [hx] at e1; cases e1
          | ok F => rw [hx] at e1; injection e1 with e1; rw [← e1]
      injection h with h
      subst h
      exact ⟨e2, by rw [hvv]; exact hvals, e3, e4, ⟨cl, e5, Or.inr (Or.inl List.infix_rfl)⟩, fun P Q h _ _ => e6 P Q (h hcl)⟩
    · obtain ⟨st1, e1, e2, e3, e4, e5, e6⟩ := newStep_spec st hw (norm cl) d
      rw [e1]
      refine ⟨fun e he => by (cases he), fun st' h => ?_⟩
      have hvv : st1.vals = norm cl :: st.vals := by
        unfold newStep at e1
        cases hx : Forest.modAt (csLine st.cs d).length (fun c => .ok (c.pushStr (norm cl))) st.files with
        | error e => rw [hx] at e1; cases e1
        | ok F => rw [hx] at e1; injection e1 with e1; rw [← e1]
      injection h with h
      subst h
      refine ⟨e2, ?_, e3, e4, ⟨norm cl, e5, Or.inl List.infix_rfl⟩, fun P Q _ h _ => e6 P Q h⟩
      rw [hvv]
      simp only [List.mem_cons, not_or]
      exact ⟨(norm_ne_nil cl).symm, hvals⟩

theorem sectionStep_vals (st st' : St) (cl : Str) (d : Nat) (h : sectionStep st cl d = .ok st') : st'.vals = st.vals := by
  unfold sectionStep at h
  cases hx : Forest.modAt (csSection st.cs d).length (fun c => .ok (c.pushSec (sectionName cl) d)) st.files with
  | error e => rw [hx] at h; cases h
  | ok F => rw [hx] at h; injection h with h; rw [← h]

theorem Wf.withKey {st : St} (h : Wf st) (k : Str) : Wf { st with lastkey := k } := ⟨h.chain, h.flat, h.novals⟩

/-- Everything the loop body guarantees. -/
theorem step_spec (st : St) (hw : Wf st) (hvals : [] ∉ st.vals) (h : Str) :
    (∀ e, step st h = .error e →
      e = .IndexError ∧ isKept h ∧ (keyVal (cleanLine h)).1 = "...".toList ∧ getAt st.cs.length st.files = some .nil) ∧
    (∀ st', step st h = .ok st' → Wf st' ∧ [] ∉ st'.vals ∧ Grow st.files st'.files ∧
      st'.lastkey = (if isKept h then (keyVal (cleanLine h)).1 else st.lastkey) ∧
      (isKept h → ∃ s ∈ strs st'.files, norm (cleanLine h) <:+: s ∨ cleanLine h <:+: s ∨
        (((keyVal (cleanLine h)).1 = "...".toList ∨ (keyVal (cleanLine h)).1 = st.lastkey) ∧
          lstrip (keyVal (cleanLine h)).2 <:+: s)) ∧
      (∀ P Q : Str → Prop, LineOk P Q h → all P Q st.files → all P Q st'.files)) := by
  by_cases hk : isKept h
  · rw [step_kept st h hk]
    obtain ⟨h1, h2⟩ := keepStep_spec st hw (cleanLine h) (lineDepth h) hvals
    cases hx : keepStep st (cleanLine h) (lineDepth h) with
    | error e =>
      refine ⟨fun e' he => ?_, fun st' h => by cases h⟩
      injection he with he
      subst he
      obtain ⟨a, b, c⟩ := h1 e hx
      exact ⟨a, hk, b, c⟩
    | ok st1 =>
      refine ⟨fun e' he => by (cases he), fun st' h => ?_⟩
      injection h with h
      subst h
      obtain ⟨a, a', b, c, d, e⟩ := h2 st1 hx
      refine ⟨a.withKey _, a', b, by simp [hk], fun _ => d, fun P Q hl => e P Q (hl.cl hk.1) (hl.norm hk.1) (hl.ext hk.1)⟩
  · by_cases hs : isSectionText (cleanLine h) = true
    · obtain ⟨st1, e1, e2, e3, e4, e5, e6⟩ := sectionStep_spec st hw (cleanLine h) (lineDepth h)
      have : step st h = .ok st1 := by unfold step; rw [if_pos hs, e1]
      rw [this]
      refine ⟨fun e' he => by (cases he), fun st' h => ?_⟩
      injection h with h
      subst h
      exact ⟨e2, by rw [sectionStep_vals _ _ _ _ e1]; exact hvals, e3, by simp [hk, e4], fun h => absurd h hk,
        fun P Q hl => e6 P Q (hl.name hs)⟩
    · by_cases hp : (keyVal (cleanLine h)).1 = "pvalue".toList ∨ (keyVal (cleanLine h)).1 = "FORMAT".toList
      · have : step st h = .ok st := by unfold step; rw [if_neg hs, if_pos hp]
        rw [this]
        refine ⟨fun e' he => by (cases he), fun st' h => ?_⟩
        injection h with h
        subst h
        exact ⟨hw, hvals, Grow.refl _, by simp [hk], fun h => absurd h hk, fun _ _ _ h => h⟩
      · have hv : (keyVal (cleanLine h)).1 = "VIEW".toList := by
          by_contra hv
          rw [not_or] at hp
          exact hk ⟨by simpa using hs, hp.1, hp.2, hv⟩
        have : step st h = .ok { st with view := some (keyVal (cleanLine h)).2 } := by
          unfold step; rw [if_neg hs, if_neg hp, if_pos hv]
        rw [this]
        refine ⟨fun e' he => by (cases he), fun st' h => ?_⟩
        injection h with h
        subst h
        exact ⟨⟨hw.chain, hw.flat, hw.novals⟩, hvals, Grow.refl _, by simp [hk], fun h => absurd h hk, fun _ _ _ h => h⟩

theorem run_append (st : St) (a b : List Str) : run st (a ++ b) = (run st a).bind (fun s => run s b) := by
  induction a generalizing st with
  | nil => rfl
  | cons h a ih =>
    simp only [List.cons_append, run]
    cases hx : step st h with
    | error e => rfl
    | ok s => exact ih s

/-- The chain of open sections always exists (the model never runs into its internal KeyError) and the invariant holds. -/
theorem wf_run (st : St) (hw : Wf st) (hv : [] ∉ st.vals) (lines : List Str) (st' : St) (h : run st lines = .ok st') :
    Wf st' ∧ [] ∉ st'.vals ∧ Grow st.files st'.files := by
  induction lines generalizing st with
  | nil => injection h with h; subst h; exact ⟨hw, hv, Grow.refl _⟩
  | cons l ls ih =>
    simp only [run] at h
    cases hx : step st l with
    | error e => rw [hx] at h; cases h
    | ok s =>
      rw [hx] at h
      obtain ⟨a, b, c, -⟩ := (step_spec st hw hv l).2 s hx
      obtain ⟨a', b', c'⟩ := ih s a b h
      exact ⟨a', b', c.trans c'⟩

theorem all_run (P Q : Str → Prop) (st : St) (hw : Wf st) (hv : [] ∉ st.vals) (lines : List Str)
    (hl : ∀ l ∈ lines, LineOk P Q l) (hall : all P Q st.files) (st' : St) (h : run st lines = .ok st') :
    all P Q st'.files := by
  induction lines generalizing st with
  | nil => injection h with h; subst h; exact hall
  | cons l ls ih =>
    simp only [run] at h
    cases hx : step st l with
    | error e => rw [hx] at h; cases h
    | ok s =>
      rw [hx] at h
      obtain ⟨a, b, c, -, -, d⟩ := (step_spec st hw hv l).2 s hx
      exact ih s a b (fun x hx => hl x (by simp [hx])) (d P Q (hl l (by simp)) hall) h

/-- Key of the last kept line (empty before the first). -/
def prevKey (lines : List Str) : Str :=
  match (lines.filter (fun h => decide (isKept h))).getLast? with
  | none => []
  | some h => (keyVal (cleanLine h)).1

theorem lastkey_run (st : St) (hw : Wf st) (hv : [] ∉ st.vals) (lines : List Str) (st' : St) (h : run st lines = .ok st') :
    st'.lastkey = match (lines.filter (fun h => decide (isKept h))).getLast? with
      | none => st.lastkey
      | some h => (keyVal (cleanLine h)).1 := by
  induction lines generalizing st with
  | nil => injection h with h; subst h; rfl
  | cons l ls ih =>
    simp only [run] at h
    cases hx : step st l with
    | error e => rw [hx] at h; cases h
    | ok s =>
      rw [hx] at h
      obtain ⟨a, b, c, d, -⟩ := (step_spec st hw hv l).2 s hx
      rw [ih s a b h]
      by_cases hk : isKept l
      · simp only [List.filter_cons, hk, decide_true, if_true, List.getLast?_cons]
        cases (ls.filter (fun h => decide (isKept h))).getLast? <;> simp [d, hk]
      · simp only [List.filter_cons, hk, decide_false, Bool.false_eq_true, if_false]
        rw [d]; simp [hk]

/-- What a kept line leaves in the stored texts. -/
def Leaves (pre : List Str) (h s : Str) : Prop :=
  norm (cleanLine h) <:+: s ∨ cleanLine h <:+: s ∨
    (((keyVal (cleanLine h)).1 = "...".toList ∨ (keyVal (cleanLine h)).1 = prevKey pre) ∧
      lstrip (keyVal (cleanLine h)).2 <:+: s)

theorem run_leaves (lines : List Str) (st' : St) (hr : run St.init lines = .ok st') (pre : List Str) (h : Str) (post : List Str)
    (hl : lines = pre ++ h :: post) (hk : isKept h) : ∃ s ∈ strs st'.files, Leaves pre h s := by
  subst hl
  rw [run_append] at hr
  cases h1 : run St.init pre with
  | error e => rw [h1] at hr; cases hr
  | ok s1 =>
    rw [h1] at hr
    simp only [Except.bind, run] at hr
    obtain ⟨w1, v1, -⟩ := wf_run St.init wf_init (by simp [St.init]) pre s1 h1
    have hkey := lastkey_run St.init wf_init (by simp [St.init]) pre s1 h1
    cases h2 : step s1 h with
    | error e => rw [h2] at hr; cases hr
    | ok s2 =>
      rw [h2] at hr
      obtain ⟨w2, v2, -, -, hleave, -⟩ := (step_spec s1 w1 v1 h).2 s2 h2
      obtain ⟨s, hs, hor⟩ := hleave hk
      obtain ⟨-, -, hg⟩ := wf_run s2 w2 v2 post st' hr
      obtain ⟨s', hs', hinf⟩ := hg s hs
      refine ⟨s', hs', ?_⟩
      have hkey' : s1.lastkey = prevKey pre := by rw [hkey]; rfl
      rcases hor with a | a | ⟨a, b⟩
      · exact Or.inl (a.trans hinf)
      · exact Or.inr (Or.inl (a.trans hinf))
      · rw [hkey'] at a; exact Or.inr (Or.inr ⟨a, b.trans hinf⟩)

/-! ## output -/

/-- No line break characters. -/
def NB (s : Str) : Prop := ∀ c ∈ s, isLineBreak c = false

theorem NB.append {a b : Str} (ha : NB a) (hb : NB b) : NB (a ++ b) := by
  intro c hc; rcases List.mem_append.1 hc with h | h
  · exact ha c h
  · exact hb c h

theorem NB.of_subset {a b : Str} (hb : NB b) (h : ∀ c ∈ a, c ∈ b) : NB a := fun c hc => hb c (h c hc)

theorem go_nb (cur : Str) (c : Char) (cs : Str) (hc : isLineBreak c = false) :
    splitlinesGo cur (c :: cs) = splitlinesGo (c :: cur) cs := by
  rw [splitlinesGo.eq_3]
  · simp [hc]
  · intro cs' h1 h2; subst h1; revert hc; decide

theorem go_nb_append (s : Str) (hs : NB s) (cur rest : Str) :
    splitlinesGo cur (s ++ rest) = splitlinesGo (s.reverse ++ cur) rest := by
  induction s generalizing cur with
  | nil => rfl
  | cons c cs ih =>
    rw [List.cons_append, go_nb _ _ _ (hs c (by simp)), ih (fun x hx => hs x (by simp [hx]))]
    simp

theorem go_newline (cur rest : Str) : splitlinesGo cur ('\n' :: rest) = cur.reverse :: splitlinesGo [] rest := by
  rw [splitlinesGo.eq_3]
  · rw [if_pos (by decide)]
  · intro cs' h; cases h

/-- `"\n".join(lines).splitlines()` is `lines` for non-empty lines without line breaks. -/
theorem splitlines_join (ls : List Str) (h : ∀ l ∈ ls, l ≠ [] ∧ NB l) : splitlines (joinWith '\n' ls) = ls := by
  unfold splitlines
  induction ls with
  | nil => rfl
  | cons l ls ih =>
    obtain ⟨h1, h2⟩ := h l (by simp)
    cases ls with
    | nil =>
      simp only [joinWith]
      have := go_nb_append l h2 [] []
      simp only [List.append_nil] at this
      rw [this]
      simp [splitlinesGo, h1]
    | cons m ls =>
      simp only [joinWith]
      rw [go_nb_append l h2 [] _, go_newline, ih (fun x hx => h x (by simp [hx]))]
      simp

/-- Text made of lines each followed by a line feed. -/
def unlines (ls : List Str) : Str := (ls.map (· ++ ['\n'])).flatten

theorem splitlines_unlines (ls : List Str) (h : ∀ l ∈ ls, NB l) : splitlines (unlines ls) = ls := by
  unfold splitlines unlines
  induction ls with
  | nil => rfl
  | cons l ls ih =>
    simp only [List.map_cons, List.flatten_cons, List.append_assoc, List.singleton_append]
    rw [go_nb_append l (h l (by simp)) [] _, go_newline, ih (fun x hx => h x (by simp [hx]))]
    simp

theorem go_pieces (s cur : Str) (hcur : NB cur) : ∀ l ∈ splitlinesGo cur s, NB l := by
  induction hn : s.length using Nat.strong_induction_on generalizing s cur with
  | _ n ih =>
    have hrev : NB cur.reverse := NB.of_subset hcur (by simp)
    match s with
    | [] =>
      simp only [splitlinesGo]
      split
      · simp
      · intro l hl; simp at hl; subst hl; exact hrev
    | '\r' :: '\n' :: cs =>
      simp only [splitlinesGo]
      intro l hl
      rcases List.mem_cons.1 hl with rfl | hl
      · exact hrev
      · exact ih cs.length (by simp at hn; omega) cs [] (by simp [NB]) rfl l hl
    | c :: cs =>
      by_cases hc : isLineBreak c = true
      · by_cases hrn : ∃ cs', c = '\r' ∧ cs = '\n' :: cs'
        · obtain ⟨cs', rfl, rfl⟩ := hrn
          simp only [splitlinesGo]
          intro l hl
          rcases List.mem_cons.1 hl with rfl | hl
          · exact hrev
          · exact ih cs'.length (by simp at hn; omega) cs' [] (by simp [NB]) rfl l hl
        · rw [splitlinesGo.eq_3 _ _ _ (fun cs' a b => hrn ⟨cs', a, b⟩), if_pos hc]
          intro l hl
          rcases List.mem_cons.1 hl with rfl | hl
          · exact hrev
          · exact ih cs.length (by simp at hn; omega) cs [] (by simp [NB]) rfl l hl
      · have hc' : isLineBreak c = false := by simpa using hc
        rw [go_nb _ _ _ hc']
        exact ih cs.length (by simp at hn; omega) cs (c :: cur) (by
          intro x hx; rcases List.mem_cons.1 hx with rfl | hx
          · exact hc'
          · exact hcur x hx) rfl

theorem splitlines_pieces (s : Str) : ∀ l ∈ splitlines s, NB l := go_pieces s [] (by simp [NB])

/-! ### no line breaks in stored texts -/

theorem afterLast_mem (pat s t : Str) (h : afterLast pat s = some t) : ∀ c ∈ t, c ∈ s := by
  induction s with
  | nil =>
    simp only [afterLast] at h
    split at h
    · injection h with h; subst h; simp
    · cases h
  | cons c cs ih =>
    simp only [afterLast] at h
    cases hx : afterLast pat cs with
    | some t' =>
      rw [hx] at h; injection h with h; subst h
      intro x hx'; simp [ih hx x hx']
    | none =>
      rw [hx] at h
      simp only at h
      split at h
      · injection h with h; subst h
        exact fun x hx' => List.mem_of_mem_drop hx'
      · cases h

theorem NB_subRun (r : Str) (h : NB r) : NB (subRun r) := by
  unfold subRun
  cases hx : afterLast "clasp_tmp".toList r with
  | none => exact h
  | some t =>
    refine NB.append (by intro c hc; revert c; decide) ?_
    exact NB.of_subset h (fun c hc => afterLast_mem _ _ _ hx c ((List.dropWhile_suffix _).subset hc))

theorem NB_subClaspGo (s cur : Str) (h : NB s) (hc : NB cur) : NB (subClaspGo cur s) := by
  induction s generalizing cur with
  | nil => exact NB_subRun _ (NB.of_subset hc (by simp))
  | cons c cs ih =>
    have hcs : NB cs := fun x hx => h x (by simp [hx])
    simp only [subClaspGo]
    split
    · refine NB.append (NB_subRun _ (NB.of_subset hc (by simp))) ?_
      intro x hx
      rcases List.mem_cons.1 hx with rfl | hx
      · exact h _ (by simp)
      · exact ih [] hcs (by simp [NB]) x hx
    · refine ih (c :: cur) hcs ?_
      intro x hx
      rcases List.mem_cons.1 hx with rfl | hx
      · exact h _ (by simp)
      · exact hc x hx

theorem strip_mem (s : Str) : ∀ c ∈ strip s, c ∈ s := by
  intro c hc
  unfold strip rstrip lstrip at hc
  rw [List.mem_reverse] at hc
  have := (List.dropWhile_suffix _).subset hc
  rw [List.mem_reverse] at this
  exact (List.dropWhile_suffix _).subset this

theorem lstrip_mem (s : Str) : ∀ c ∈ lstrip s, c ∈ s := fun _ hc => (List.dropWhile_suffix _).subset hc

theorem NB_cleanLine (h : Str) (hn : NB h) : NB (cleanLine h) :=
  NB_subClaspGo _ _ (NB.of_subset hn (strip_mem h)) (by simp [NB])

theorem takeWhile_mem (p : Char → Bool) (s : Str) : ∀ c ∈ s.takeWhile p, c ∈ s := fun _ hc => (List.takeWhile_prefix p).subset hc

theorem keyVal_mem (cl : Str) : (∀ c ∈ (keyVal cl).1, c ∈ cl) ∧ (∀ c ∈ (keyVal cl).2, c ∈ cl) := by
  unfold keyVal splitKV
  split
  · refine ⟨takeWhile_mem _ _, fun c hc => ?_⟩
    exact (List.dropWhile_suffix _).subset (List.mem_of_mem_tail hc)
  · dsimp only
    split
    · exact ⟨fun c hc => hc, by simp⟩
    · refine ⟨fun c hc => lstrip_mem _ _ (takeWhile_mem _ _ c hc), fun c hc => ?_⟩
      exact lstrip_mem _ _ ((List.dropWhile_suffix _).subset (lstrip_mem _ _ hc))

theorem sectionName_mem (cl : Str) : ∀ c ∈ sectionName cl, c ∈ cl := by
  intro c hc
  unfold sectionName at hc
  have := (List.dropLast_sublist _).subset hc
  rw [List.mem_reverse] at this
  have := takeWhile_mem _ _ c this
  simpa using this

/-- Stored texts are non-empty and have no line breaks. -/
def Good (s : Str) : Prop := s ≠ [] ∧ NB s

theorem lineOk_good (h : Str) (hn : NB h) : LineOk Good NB h := by
  have hc := NB_cleanLine h hn
  have hkv := keyVal_mem (cleanLine h)
  refine ⟨fun _ => NB.of_subset hc (sectionName_mem _), fun _ h => ⟨h, hc⟩, fun _ => ⟨norm_ne_nil _, ?_⟩, fun _ s hs => ⟨by simp, ?_⟩⟩
  · unfold norm
    refine NB.append (NB.of_subset hc hkv.1) ?_
    intro c hcm
    rcases List.mem_cons.1 hcm with rfl | hcm
    · unfold sepOf; split <;> decide
    · exact hc c (hkv.2 c hcm)
  · refine NB.append hs.2 ?_
    intro c hcm
    rcases List.mem_cons.1 hcm with rfl | hcm
    · decide
    · exact hc c (hkv.2 c (lstrip_mem _ _ hcm))

theorem NB_tabs (n : Nat) : NB (List.replicate n '\t') := by
  intro c hc; rw [List.eq_of_mem_replicate hc]; decide

theorem cleanUp_good (F : Forest) (depth da : Int) (h : all Good NB F) : ∀ l ∈ cleanUp depth da F, Good l := by
  induction F generalizing depth da with
  | nil => simp [cleanUp]
  | str s r ih =>
    intro l hl
    simp only [cleanUp, List.mem_cons] at hl
    rcases hl with rfl | hl
    · exact ⟨by simp [h.1.1], NB.append (NB_tabs _) h.1.2⟩
    · exact ih _ _ h.2 l hl
  | sec n d c r ihc ihr =>
    intro l hl
    simp only [cleanUp, List.mem_append] at hl
    rcases hl with hl | hl
    · split at hl
      · simp at hl
      · split at hl
        · exact ihc _ _ h.2.1 l hl
        · rcases List.mem_cons.1 hl with rfl | hl
          · exact ⟨by simp, NB.append (NB.append (NB_tabs _) h.1) (by intro c hc; simp at hc; subst hc; decide)⟩
          · exact ihc _ _ h.2.1 l hl
    · exact ihr _ _ h.2.2 l hl

theorem cleanUp_strs (F : Forest) (depth da : Int) (s : Str) (hs : s ∈ strs F) :
    ∃ n, List.replicate n '\t' ++ s ∈ cleanUp depth da F := by
  induction F generalizing depth da with
  | nil => simp [strs] at hs
  | str t r ih =>
    simp only [strs, List.mem_cons] at hs
    rcases hs with rfl | hs
    · exact ⟨_, by simp only [cleanUp]; exact List.mem_cons_self⟩
    · obtain ⟨n, hn⟩ := ih depth da hs; exact ⟨n, by simp only [cleanUp]; exact List.mem_cons_of_mem _ hn⟩
  | sec m d c r ihc ihr =>
    simp only [strs, List.mem_append] at hs
    simp only [cleanUp]
    rcases hs with hs | hs
    · have hc : c ≠ .nil := by rintro rfl; simp [strs] at hs
      rw [if_neg hc]
      split
      · obtain ⟨n, hn⟩ := ihc d (da + 1) hs; exact ⟨n, List.mem_append_left _ hn⟩
      · obtain ⟨n, hn⟩ := ihc d da hs; exact ⟨n, List.mem_append_left _ (List.mem_cons_of_mem _ hn)⟩
    · obtain ⟨n, hn⟩ := ihr depth da hs; exact ⟨n, List.mem_append_right _ hn⟩

/-- The lines one entry is wrapped into. -/
def wrapped (wrap : Nat → Str → Str → List Str) (w : Nat) (i : Str) : List Str :=
  match wrap w (contIndent i) i with
  | [] => []
  | p :: ps => p :: ps.map (contIndent i ++ ·)

theorem wrapped_ne_nil (wrap : Nat → Str → Str → List Str) (hwr : WrapOk wrap) (w : Nat) (i : Str) (hi : i ≠ []) :
    wrapped wrap w i ≠ [] := by
  unfold wrapped
  cases hx : wrap w (contIndent i) i with
  | nil => have := hwr.join w (contIndent i) i; rw [hx] at this; exact absurd this.symm hi
  | cons p ps => simp

theorem fill_eq (wrap : Nat → Str → Str → List Str) (w : Nat) (i : Str) :
    fill wrap w i = joinWith '\n' (wrapped wrap w i) := by
  unfold fill wrapped
  cases wrap w (contIndent i) i <;> rfl

theorem join_append (a b : List Str) (ha : a ≠ []) (hb : b ≠ []) :
    joinWith '\n' (a ++ b) = joinWith '\n' a ++ '\n' :: joinWith '\n' b := by
  induction a with
  | nil => exact absurd rfl ha
  | cons x a ih =>
    cases a with
    | nil =>
      cases b with
      | nil => exact absurd rfl hb
      | cons y b => simp [joinWith]
    | cons z a =>
      have := ih (by simp)
      simp only [List.cons_append, joinWith] at this ⊢
      rw [this]; simp

theorem join_flatten (L : List (List Str)) (h : ∀ l ∈ L, l ≠ []) :
    joinWith '\n' (L.map (joinWith '\n')) = joinWith '\n' L.flatten := by
  induction L with
  | nil => rfl
  | cons l L ih =>
    cases L with
    | nil => simp [joinWith]
    | cons m L =>
      have ih' := ih (fun x hx => h x (by simp [hx]))
      have hm : (m :: L).flatten ≠ [] := by
        have := h m (by simp)
        cases m with
        | nil => exact absurd rfl this
        | cons => simp
      rw [List.flatten_cons, join_append l _ (h l (by simp)) hm, ← ih']
      simp [joinWith]

theorem NB_contIndent (i : Str) (h : NB i) : NB (contIndent i) := by
  unfold contIndent
  refine NB.append (NB.of_subset h (takeWhile_mem _ _)) ?_
  split
  · refine NB.append (NB.of_subset h (fun c hc => strip_mem _ _ (takeWhile_mem _ _ c hc))) ?_
    intro c hc; revert c; decide
  · intro c hc; revert c; decide

theorem contIndent_ne_nil (i : Str) : contIndent i ≠ [] := by
  unfold contIndent
  split <;> simp

theorem wrapped_good (wrap : Nat → Str → Str → List Str) (hwr : WrapOk wrap) (w : Nat) (i : Str) (hi : Good i) :
    ∀ l ∈ wrapped wrap w i, Good l := by
  unfold wrapped
  have hp : ∀ p ∈ wrap w (contIndent i) i, NB p := by
    intro p hp
    refine NB.of_subset hi.2 (fun c hc => ?_)
    rw [← hwr.join w (contIndent i) i]
    exact List.mem_flatten.2 ⟨p, hp, hc⟩
  cases hx : wrap w (contIndent i) i with
  | nil => simp
  | cons p ps =>
    rw [hx] at hp
    intro l hl
    rcases List.mem_cons.1 hl with rfl | hl
    · exact ⟨hwr.head _ _ _ _ _ hx, hp _ (by simp)⟩
    · obtain ⟨q, hq, rfl⟩ := List.mem_map.1 hl
      have := hp q (by simp [hq])
      exact ⟨by simp [contIndent_ne_nil], NB.append (NB_contIndent i hi.2) this⟩

/-- The assembled header is the concatenation of the wrapped entries, then the view. -/
theorem assemble_eq (wrap : Nat → Str → Str → List Str) (hwr : WrapOk wrap) (w : Nat) (st : St)
    (h : all Good NB st.files) :
    assemble wrap w st = ((cleanUp (-1) 0 st.files).map (wrapped wrap w)).flatten ++
      (match st.view with
       | none => []
       | some v => ["VIEW=".toList ++ v]) := by
  unfold assemble
  congr 1
  have hg := cleanUp_good st.files (-1) 0 h
  have : (cleanUp (-1) 0 st.files).map (fill wrap w) = ((cleanUp (-1) 0 st.files).map (wrapped wrap w)).map (joinWith '\n') := by
    rw [List.map_map]; exact List.map_congr_left fun i _ => fill_eq wrap w i
  rw [this, join_flatten]
  · apply splitlines_join
    intro l hl
    obtain ⟨L, hL, hl⟩ := List.mem_flatten.1 hl
    obtain ⟨i, hi, rfl⟩ := List.mem_map.1 hL
    exact wrapped_good wrap hwr w i (hg i hi) l hl
  · intro l hl
    obtain ⟨i, hi, rfl⟩ := List.mem_map.1 hl
    exact wrapped_ne_nil wrap hwr w i (hg i hi).1

end Verif.Header
