import Verif.Lemmas.HeaderRun
/-! Which characters a cleaned header can contain. -/
namespace Verif.Header
open Verif.Py Forest

/-- the characters the cleaning writes itself -/
def ownChars : Str := "<stdin>:=\t. VIEW".toList

/-- all characters of a text are in `A` -/
def Only (A : Char → Prop) (s : Str) : Prop := ∀ c ∈ s, A c

theorem Only.append {A : Char → Prop} {a b : Str} (ha : Only A a) (hb : Only A b) : Only A (a ++ b) := by
  intro c hc
  rcases List.mem_append.1 hc with h | h
  · exact ha c h
  · exact hb c h

theorem Only.sub {A : Char → Prop} {a b : Str} (hb : Only A b) (h : ∀ c ∈ a, c ∈ b) : Only A a := fun c hc => hb c (h c hc)

theorem Only.cons {A : Char → Prop} {c : Char} {b : Str} (hc : A c) (hb : Only A b) : Only A (c :: b) := by
  intro x hx
  rcases List.mem_cons.1 hx with rfl | hx
  · exact hc
  · exact hb x hx

theorem only_own {A : Char → Prop} (hA : ∀ c ∈ ownChars, A c) (s : Str) (h : ∀ c ∈ s, c ∈ ownChars) : Only A s :=
  fun c hc => hA c (h c hc)

variable {A : Char → Prop}

theorem only_subRun (hA : ∀ c ∈ ownChars, A c) (r : Str) (h : Only A r) : Only A (subRun r) := by
  unfold subRun
  cases hx : afterLast "clasp_tmp".toList r with
  | none => exact h
  | some t =>
    refine Only.append (only_own hA _ (by decide)) ?_
    exact h.sub (fun c hc => afterLast_mem _ _ _ hx c ((List.dropWhile_suffix _).subset hc))

theorem only_subClaspGo (hA : ∀ c ∈ ownChars, A c) (s cur : Str) (h : Only A s) (hc : Only A cur) :
    Only A (subClaspGo cur s) := by
  induction s generalizing cur with
  | nil => exact only_subRun hA _ (hc.sub (by simp))
  | cons c cs ih =>
    have hcs : Only A cs := fun x hx => h x (by simp [hx])
    simp only [subClaspGo]
    split
    · exact Only.append (only_subRun hA _ (hc.sub (by simp))) (Only.cons (h _ (by simp)) (ih [] hcs (by simp [Only])))
    · exact ih (c :: cur) hcs (Only.cons (h _ (by simp)) hc)

theorem only_cleanLine (hA : ∀ c ∈ ownChars, A c) (h : Str) (hn : Only A h) : Only A (cleanLine h) :=
  only_subClaspGo hA _ _ (hn.sub (strip_mem h)) (by simp [Only])

theorem lineOk_only (hA : ∀ c ∈ ownChars, A c) (h : Str) (hn : Only A h) : LineOk (Only A) (Only A) h := by
  have hc := only_cleanLine hA h hn
  have hkv := keyVal_mem (cleanLine h)
  refine ⟨fun _ => hc.sub (sectionName_mem _), fun _ _ => hc, fun _ => ?_, fun _ s hs => ?_⟩
  · unfold norm
    refine Only.append (hc.sub hkv.1) (Only.cons ?_ (hc.sub hkv.2))
    unfold sepOf; split <;> exact hA _ (by decide)
  · exact Only.append hs (Only.cons (hA _ (by decide)) (hc.sub fun c hcm => hkv.2 c (lstrip_mem _ _ hcm)))

theorem only_tabs (hA : ∀ c ∈ ownChars, A c) (n : Nat) : Only A (List.replicate n '\t') := by
  intro c hc; rw [List.eq_of_mem_replicate hc]; exact hA _ (by decide)

theorem cleanUp_only (hA : ∀ c ∈ ownChars, A c) (F : Forest) (depth da : Int) (h : all (Only A) (Only A) F) :
    ∀ l ∈ cleanUp depth da F, Only A l := by
  induction F generalizing depth da with
  | nil => simp [cleanUp]
  | str s r ih =>
    intro l hl
    simp only [cleanUp, List.mem_cons] at hl
    rcases hl with rfl | hl
    · exact Only.append (only_tabs hA _) h.1
    · exact ih _ _ h.2 l hl
  | sec n d c r ihc ihr =>
    intro l hl
    simp only [cleanUp, List.mem_append] at hl
    rcases hl with hl | hl
    · split at hl
      · simp at hl
      · split at hl
        · exact ihc _ _ h.2.1 l hl
        · rcases List.mem_cons.1 hl with rfl | hl
          · exact Only.append (Only.append (only_tabs hA _) h.1) (only_own hA _ (by decide))
          · exact ihc _ _ h.2.1 l hl
    · exact ihr _ _ h.2.2 l hl

theorem only_contIndent (hA : ∀ c ∈ ownChars, A c) (i : Str) (h : Only A i) : Only A (contIndent i) := by
  unfold contIndent
  refine Only.append (h.sub (takeWhile_mem _ _)) ?_
  split
  · exact Only.append (h.sub (fun c hc => strip_mem _ _ (takeWhile_mem _ _ c hc))) (only_own hA _ (by decide))
  · exact only_own hA _ (by decide)

theorem wrapped_only (hA : ∀ c ∈ ownChars, A c) (wrap : Nat → Str → Str → List Str) (hwr : WrapOk wrap) (w : Nat)
    (i : Str) (hi : Only A i) : ∀ l ∈ wrapped wrap w i, Only A l := by
  unfold wrapped
  have hp : ∀ p ∈ wrap w (contIndent i) i, Only A p := by
    intro p hp
    refine hi.sub (fun c hc => ?_)
    rw [← hwr.join w (contIndent i) i]
    exact List.mem_flatten.2 ⟨p, hp, hc⟩
  cases hx : wrap w (contIndent i) i with
  | nil => simp
  | cons p ps =>
    rw [hx] at hp
    intro l hl
    rcases List.mem_cons.1 hl with rfl | hl
    · exact hp _ (by simp)
    · obtain ⟨q, hq, rfl⟩ := List.mem_map.1 hl
      exact Only.append (only_contIndent hA i hi) (hp q (by simp [hq]))

theorem keepStep_view (st st' : St) (cl : Str) (d : Nat) (h : keepStep st cl d = .ok st') : st'.view = st.view := by
  unfold keepStep at h
  split at h
  · unfold continueStep at h
    cases hx : Forest.modAt st.cs.length (Forest.extendLast (' ' :: lstrip (keyVal cl).2)) st.files with
    | error e => rw [hx] at h; cases h
    | ok F =>
      rw [hx] at h
      change (match st.vals with | [] => _ | v :: vs => _) = _ at h
      cases hv : st.vals with
      | nil => rw [hv] at h; cases h
      | cons v vs => rw [hv] at h; injection h with h; rw [← h]
  · split at h
    · unfold promoteStep at h
      split at h
      · injection h with h; rw [← h]
      · rename_i idx _
        cases hx : Forest.promote cl idx (Forest.pop cl [] 0 st.files).2 with
        | error e => rw [hx] at h; cases h
        | ok F => rw [hx] at h; injection h with h; rw [← h]
    · unfold newStep at h
      cases hx : Forest.modAt (csLine st.cs d).length (fun c => .ok (c.pushStr (norm cl))) st.files with
      | error e => rw [hx] at h; cases h
      | ok F => rw [hx] at h; injection h with h; rw [← h]

theorem step_view (hA : ∀ c ∈ ownChars, A c) (st st' : St) (h : Str) (hn : Only A h) (hs : step st h = .ok st')
    (hv : ∀ v, st.view = some v → Only A v) : ∀ v, st'.view = some v → Only A v := by
  unfold step at hs
  split at hs
  · unfold sectionStep at hs
    cases hx : Forest.modAt (csSection st.cs (lineDepth h)).length
        (fun c => .ok (c.pushSec (sectionName (cleanLine h)) (lineDepth h))) st.files with
    | error e => rw [hx] at hs; cases hs
    | ok F => rw [hx] at hs; injection hs with hs; rw [← hs]; exact hv
  · split at hs
    · injection hs with hs; rw [← hs]; exact hv
    · split at hs
      · injection hs with hs
        rw [← hs]
        intro v hvv
        injection hvv with hvv
        rw [← hvv]
        exact (only_cleanLine hA h hn).sub (keyVal_mem _).2
      · cases hx : keepStep st (cleanLine h) (lineDepth h) with
        | error e => rw [hx] at hs; cases hs
        | ok s =>
          rw [hx] at hs
          injection hs with hs
          rw [← hs]
          intro v hvv
          exact hv v (by rw [← keepStep_view _ _ _ _ hx]; exact hvv)

theorem run_view (hA : ∀ c ∈ ownChars, A c) (lines : List Str) (hl : ∀ l ∈ lines, Only A l) (st st' : St)
    (hv : ∀ v, st.view = some v → Only A v) (h : run st lines = .ok st') : ∀ v, st'.view = some v → Only A v := by
  induction lines generalizing st with
  | nil => injection h with h; rw [← h]; exact hv
  | cons l ls ih =>
    simp only [run] at h
    cases hx : step st l with
    | error e => rw [hx] at h; cases h
    | ok s =>
      rw [hx] at h
      exact ih (fun x hx => hl x (by simp [hx])) s (step_view hA st s l (hl l (by simp)) hx hv) h

theorem splitlinesGo_mem (s cur : Str) : ∀ l ∈ splitlinesGo cur s, ∀ c ∈ l, c ∈ cur ∨ c ∈ s := by
  induction hn : s.length using Nat.strong_induction_on generalizing s cur with
  | _ n ih =>
    match s with
    | [] =>
      simp only [splitlinesGo]
      split
      · simp
      · intro l hl c hc; simp at hl; subst hl; left; simpa using hc
    | '\r' :: '\n' :: cs =>
      simp only [splitlinesGo]
      intro l hl c hc
      rcases List.mem_cons.1 hl with rfl | hl
      · left; simpa using hc
      · rcases ih cs.length (by simp at hn; omega) cs [] rfl l hl c hc with h | h
        · simp at h
        · right; simp [h]
    | c :: cs =>
      by_cases hc : isLineBreak c = true
      · by_cases hrn : ∃ cs', c = '\r' ∧ cs = '\n' :: cs'
        · obtain ⟨cs', rfl, rfl⟩ := hrn
          simp only [splitlinesGo]
          intro l hl c hc
          rcases List.mem_cons.1 hl with rfl | hl
          · left; simpa using hc
          · rcases ih cs'.length (by simp at hn; omega) cs' [] rfl l hl c hc with h | h
            · simp at h
            · right; simp [h]
        · rw [splitlinesGo.eq_3 _ _ _ (fun cs' a b => hrn ⟨cs', a, b⟩), if_pos hc]
          intro l hl c hc
          rcases List.mem_cons.1 hl with rfl | hl
          · left; simpa using hc
          · rcases ih cs.length (by simp at hn; omega) cs [] rfl l hl c hc with h | h
            · simp at h
            · right; simp [h]
      · have hc' : isLineBreak c = false := by simpa using hc
        rw [go_nb _ _ _ hc']
        intro l hl x hx
        rcases ih cs.length (by simp at hn; omega) cs (c :: cur) rfl l hl x hx with h | h
        · rcases List.mem_cons.1 h with rfl | h
          · right; simp
          · left; exact h
        · right; simp [h]

theorem splitlines_only (text : Str) (h : ∀ c ∈ text, isLineBreak c = false → A c) : ∀ l ∈ splitlines text, Only A l := by
  intro l hl c hc
  rcases splitlinesGo_mem text [] l hl c hc with h' | h'
  · simp at h'
  · exact h c h' (splitlines_pieces text l hl c hc)

/-- a cleaned header consists of characters of the header and the characters the cleaning writes itself -/
theorem cleanText_only (hA : ∀ c ∈ ownChars, A c) (wrap : Nat → Str → Str → List Str) (hwr : WrapOk wrap) (w : Nat)
    (text : Str) (h : ∀ c ∈ text, isLineBreak c = false → A c) (out : List Str) (hout : cleanText wrap w text = .ok out) :
    ∀ l ∈ out, Only A l := by
  have hlines := splitlines_only text h
  unfold cleanText at hout
  cases hr : run St.init (splitlines text) with
  | error e => rw [hr] at hout; cases hout
  | ok st =>
    rw [hr] at hout
    injection hout with hout
    have hgood := all_run Good NB St.init wf_init (by simp [St.init]) _
      (fun l hl => lineOk_good l (splitlines_pieces text l hl)) trivial st hr
    have honly := all_run (Only A) (Only A) St.init wf_init (by simp [St.init]) _
      (fun l hl => lineOk_only hA l (hlines l hl)) trivial st hr
    have hview := run_view hA _ hlines St.init st (by intro v hv; cases hv) hr
    rw [assemble_eq wrap hwr w st hgood] at hout
    rw [← hout]
    intro l hl
    rcases List.mem_append.1 hl with hl | hl
    · obtain ⟨L, hL, hl⟩ := List.mem_flatten.1 hl
      obtain ⟨i, hi, rfl⟩ := List.mem_map.1 hL
      exact wrapped_only hA wrap hwr w i (cleanUp_only hA st.files (-1) 0 honly i hi) l hl
    · cases hv : st.view with
      | none => rw [hv] at hl; simp at hl
      | some v =>
        rw [hv] at hl
        rw [List.mem_singleton] at hl
        rw [hl]
        exact Only.append (only_own hA _ (by decide)) (hview v hv)

theorem joinWith_mem (ls : List Str) : ∀ c ∈ joinWith '\n' ls, c = '\n' ∨ ∃ l ∈ ls, c ∈ l := by
  induction ls with
  | nil => simp [joinWith]
  | cons l ls ih =>
    cases ls with
    | nil => intro c hc; right; exact ⟨l, by simp, by simpa [joinWith] using hc⟩
    | cons m ls =>
      intro c hc
      rw [joinWith] at hc
      rcases List.mem_append.1 hc with hc | hc
      · right; exact ⟨l, by simp, hc⟩
      · rcases List.mem_cons.1 hc with hc | hc
        · left; exact hc
        · rcases ih c hc with h | ⟨k, hk, hck⟩
          · left; exact h
          · right; exact ⟨k, by simp [hk], hck⟩

theorem cleanHeader_only (hA : ∀ c ∈ ownChars, A c) (wrap : Nat → Str → Str → List Str) (hwr : WrapOk wrap)
    (lines : List Str) (h : ∀ l ∈ lines, Only A l) (out : List Str) (hout : cleanHeader wrap lines = .ok out) :
    ∀ l ∈ out, Only A l := by
  refine cleanText_only hA wrap hwr 150 _ ?_ out hout
  intro c hc hb
  rcases joinWith_mem lines c hc with rfl | ⟨l, hl, hcl⟩
  · exact absurd hb (by decide)
  · exact h l hl c hcl

/-- **C14** cleaning invents no text: every character of the result is one of the input or one of the few characters the
cleaning writes itself. -/
theorem C14_alphabet (wrap : Nat → Str → Str → List Str) (hwr : WrapOk wrap) (lines out : List Str)
    (hout : cleanHeader wrap lines = .ok out) : ∀ l ∈ out, ∀ c ∈ l, c ∈ ownChars ∨ ∃ l' ∈ lines, c ∈ l' :=
  cleanHeader_only (A := fun c => c ∈ ownChars ∨ ∃ l' ∈ lines, c ∈ l') (fun _ h => Or.inl h) wrap hwr lines
    (fun l hl _ hc => Or.inr ⟨l, hl, hc⟩) out hout

end Verif.Header
