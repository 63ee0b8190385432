import Verif.Model.GssSave
import Verif.Props.Files
import Verif.Props.Names
import Verif.Lemmas.PyStr
import Mathlib.Data.List.Nodup
import Mathlib.Tactic.IntervalCases

/-! C191: response images of the glare model. -/

namespace Verif.GssSave
open Verif.Py Verif.Names Verif.Files

variable {C P : Type}

/-- what the file of the response of `img` should hold: the response to the image as it was -/
def wanted (read : Option C → Except PyErr P) (resp : Str → P → Except PyErr P) (enc : P → C) (s : Store C) (img : Str) : Except PyErr C :=
  ((read (s img)).bind (resp img)).map enc

/-- every task has ended -/
def Ended (imgs : List Str) (w : World C) : Prop := ∀ i < imgs.length, (w.phase i).ended

/-- **C191** the whole claim: for different images, whatever the schedule, every response is saved under the name of its image and no
image is changed -/
def C191_statement : Prop :=
  ∀ (C P : Type) (blank : C) (read : Option C → Except PyErr P) (resp : Str → P → Except PyErr P) (enc : P → C) (outdir : Option Str)
    (imgs : List Str) (s : Store C) (es : List (Ev C)), imgs.Nodup →
    Ended imgs (runAll blank (gssJobs read resp enc dfltSuffix outdir imgs) s es) →
    ∀ img ∈ imgs, (∀ c, wanted read resp enc s img = .ok c →
        (runAll blank (gssJobs read resp enc dfltSuffix outdir imgs) s es).store (saveName dfltSuffix outdir img) = some c) ∧
      (runAll blank (gssJobs read resp enc dfltSuffix outdir imgs) s es).store img = s img

theorem gss_apart (read : Option C → Except PyErr P) (resp : Str → P → Except PyErr P) (enc : P → C) (suffix : Str) (outdir : Option Str)
    (imgs : List Str) (hd : (imgs.map (saveName suffix outdir)).Nodup) (hi : ∀ p ∈ imgs, saveName suffix outdir p ∉ imgs) :
    Apart (gssJobs read resp enc suffix outdir imgs) where
  outs := by
    intro i k j j' p hij hkj ho ho'
    simp only [gssJobs, List.getElem?_map, Option.map_eq_some_iff] at hij hkj
    obtain ⟨a, ha, rfl⟩ := hij
    obtain ⟨b, hb, rfl⟩ := hkj
    simp only [gssJob, Option.some.injEq] at ho ho'
    have h1 : (imgs.map (saveName suffix outdir))[i]? = some p := by rw [List.getElem?_map, ha]; simp [ho]
    have h2 : (imgs.map (saveName suffix outdir))[k]? = some p := by rw [List.getElem?_map, hb]; simp [ho']
    obtain ⟨l1, e1⟩ := List.getElem?_eq_some_iff.1 h1
    obtain ⟨l2, e2⟩ := List.getElem?_eq_some_iff.1 h2
    exact (List.Nodup.getElem_inj_iff hd).1 (e1.trans e2.symm)
  ins := by
    intro j hj j' hj' h
    simp only [gssJobs, List.mem_map] at hj hj'
    obtain ⟨a, ha, rfl⟩ := hj
    obtain ⟨b, hb, rfl⟩ := hj'
    simp only [gssJob, Option.some.injEq] at h
    exact hi a ha (h ▸ hb)

/-- **C191** when no two responses have the same name and no response has the name of an image, every schedule saves every response
under its name, leaves the images and all other files as they were, and a response that cannot be computed leaves the old file -/
theorem C191_partial (blank : C) (read : Option C → Except PyErr P) (resp : Str → P → Except PyErr P) (enc : P → C) (suffix : Str)
    (outdir : Option Str) (imgs : List Str) (s : Store C) (es : List (Ev C)) (hd : (imgs.map (saveName suffix outdir)).Nodup)
    (hi : ∀ p ∈ imgs, saveName suffix outdir p ∉ imgs)
    (hend : Ended imgs (runAll blank (gssJobs read resp enc suffix outdir imgs) s es)) :
    (∀ img ∈ imgs, (runAll blank (gssJobs read resp enc suffix outdir imgs) s es).store (saveName suffix outdir img) =
      match wanted read resp enc s img with
      | .ok c => some c
      | .error _ => s (saveName suffix outdir img)) ∧
    ∀ p, (∀ img ∈ imgs, p ≠ saveName suffix outdir img) → (runAll blank (gssJobs read resp enc suffix outdir imgs) s es).store p = s p := by
  have ha := gss_apart read resp enc suffix outdir imgs hd hi
  have hinv := inv_run (blank := blank) s ha es
  refine ⟨fun img himg => ?_, fun p hp => ?_⟩
  · obtain ⟨i, hi'⟩ := List.mem_iff_getElem?.1 himg
    have hj : (gssJobs read resp enc suffix outdir imgs)[i]? = some (gssJob read resp enc suffix outdir img) := by
      rw [gssJobs, List.getElem?_map, hi']; rfl
    have hl : i < imgs.length := (List.getElem?_eq_some_iff.1 hi').1
    have := (good_end (hinv.job i _ hj) (hend i hl)).2 (saveName suffix outdir img) rfl
    rw [this]
    have hal : alone s (gssJob read resp enc suffix outdir img) = match (read (s img)).bind (resp img) with
      | .error e => .refuse e
      | .ok px => .write (enc px) := rfl
    rw [hal]
    unfold wanted
    cases (read (s img)).bind (resp img) <;> rfl
  · refine hinv.rest p fun j hj h => ?_
    simp only [gssJobs, List.mem_map] at hj
    obtain ⟨a, ha', rfl⟩ := hj
    simp only [gssJob, Option.some.injEq] at h
    exact hp a ha' h.symm

/-- **C191** a response is never written over its own image, unless it is saved to another directory -/
theorem C191_not_itself (p : Str) : saveName dfltSuffix none p ≠ p := name_ne p _ '_' (by decide)

theorem lastPart_append (a b : Str) (hb : '/' ∉ b) : lastPart (a ++ '/' :: b) = b := by
  unfold lastPart
  induction a with
  | nil =>
    rw [List.nil_append]
    show (([] : Str) :: splitOn '/' b).getLastD [] = b
    rw [splitOn_no_sep _ _ hb]
    rfl
  | cons c a ih =>
    rw [List.cons_append]
    unfold splitOn
    have hne := splitOn_ne_nil '/' (a ++ '/' :: b)
    by_cases hc : c = '/'
    · rw [if_pos hc]
      cases h : splitOn '/' (a ++ '/' :: b) with
      | nil => exact absurd h hne
      | cons x xs => rw [h] at ih; simpa [List.getLastD] using ih
    · rw [if_neg hc]
      cases h : splitOn '/' (a ++ '/' :: b) with
      | nil => exact absurd h hne
      | cons x xs =>
        rw [h] at ih
        cases xs with
        | nil =>
          exfalso
          have hj := joinWith_splitOn '/' (a ++ '/' :: b)
          rw [h] at hj
          have hx := splitOn_pieces '/' (a ++ '/' :: b) x (by rw [h]; simp)
          exact hx (by rw [show x = a ++ '/' :: b from hj]; simp)
        | cons y ys => simpa [List.getLastD] using ih

theorem lastPart_plain (b : Str) (hb : '/' ∉ b) : lastPart b = b := by
  unfold lastPart
  rw [splitOn_no_sep _ _ hb]
  rfl

/-- **C191** names in another directory: the base name of the image without its extension, and the suffix -/
theorem C191_outdir (d b e o : Str) (hb : '/' ∉ b) (he : '/' ∉ e ∧ '.' ∉ e) :
    saveName dfltSuffix (some o) (d ++ '/' :: (b ++ '.' :: e)) = o ++ '/' :: (b ++ "_rg.hdr".toList) := by
  unfold saveName
  simp only
  have : d ++ '/' :: (b ++ '.' :: e) = (d ++ '/' :: b) ++ '.' :: e := by simp
  rw [this, stem_dot _ _ he.2]
  have h2 : d ++ '/' :: b ++ dfltSuffix = d ++ '/' :: (b ++ dfltSuffix) := by simp
  rw [h2, lastPart_append]
  · rfl
  · simp only [List.mem_append, not_or]
    exact ⟨hb, by decide⟩

/-- **C191** for images of one extension saved next to them it suffices that they are different and none is named like a response -/
theorem C191_beside (stems : List Str) (hs : stems.Nodup) (h : ∀ t ∈ stems, ¬ ∃ u, t = u ++ "_rg".toList) :
    ((stems.map (· ++ ".hdr".toList)).map (saveName dfltSuffix none)).Nodup ∧
      ∀ p ∈ stems.map (· ++ ".hdr".toList), saveName dfltSuffix none p ∉ stems.map (· ++ ".hdr".toList) := by
  have e : ∀ t : Str, saveName dfltSuffix none (t ++ ".hdr".toList) = t ++ "_rg.hdr".toList := by
    intro t
    show stem (t ++ '.' :: "hdr".toList) ++ dfltSuffix = _
    rw [stem_dot _ _ (by decide)]
    rfl
  refine ⟨?_, fun p hp hq => ?_⟩
  · rw [List.map_map]
    refine List.Nodup.map (fun a b hab => ?_) hs
    simp only [Function.comp, e] at hab
    exact List.append_cancel_right hab
  · obtain ⟨t, ht, rfl⟩ := List.mem_map.1 hp
    obtain ⟨u, hu, hut⟩ := List.mem_map.1 hq
    rw [e] at hut
    refine h u hu ⟨t, ?_⟩
    have : u ++ ".hdr".toList = (t ++ "_rg".toList) ++ ".hdr".toList := by
      rw [hut, List.append_assoc]
      rfl
    exact List.append_cancel_right this

/-- two images of the same name in different directories -/
def twins : List Str := ["x/a.hdr".toList, "y/a.hdr".toList]

def twinStore : Store ℕ := fun p => if p = "x/a.hdr".toList then some 1 else if p = "y/a.hdr".toList then some 2 else none

/-- reads a number -/
def readNum : Option ℕ → Except PyErr ℕ
  | none => .error .FileNotFoundError
  | some n => .ok n

/-- **C191** images of the same name in different directories, saved to one directory: only one response is left -/
theorem C191_refuted : ¬ C191_statement := by
  intro h
  have := (h ℕ ℕ 0 readNum (fun _ n => .ok (10 * n)) id (some "o".toList) twins twinStore
    [.step 0, .step 0, .step 0, .step 1, .step 1, .step 1] (by decide) (by
      intro i hi
      have : i < 2 := hi
      interval_cases i <;> decide) "x/a.hdr".toList (by decide)).1 10 (by decide)
  revert this
  decide

/-- **C191** `metric gss gssnb --gssimage` saves the responses of one model over those of the other: what is left are those of `gssnb` -/
theorem C191_both (blank : C) (read : Option C → Except PyErr P) (full nb : Str → P → Except PyErr P) (enc : P → C) (imgs : List Str)
    (s : Store C) (es es' : List (Ev C)) (hd : (imgs.map (saveName dfltSuffix none)).Nodup)
    (hi : ∀ p ∈ imgs, saveName dfltSuffix none p ∉ imgs)
    (hok : ∀ img ∈ imgs, (∃ c, wanted read full enc s img = .ok c) ∧ ∃ c, wanted read nb enc s img = .ok c)
    (hend : Ended imgs (runAll blank (gssJobs read full enc dfltSuffix none imgs) s es))
    (hend' : Ended imgs (runAll blank (gssJobs read nb enc dfltSuffix none imgs)
      (runAll blank (gssJobs read full enc dfltSuffix none imgs) s es).store es')) :
    ∀ img ∈ imgs, ∀ c, wanted read nb enc s img = .ok c →
      bothRuns blank read full nb enc imgs s es es' (saveName dfltSuffix none img) = some c := by
  intro img himg c hc
  have h1 := C191_partial blank read full enc dfltSuffix none imgs s es hd hi hend
  have hsame : ∀ p ∈ imgs, (runAll blank (gssJobs read full enc dfltSuffix none imgs) s es).store p = s p := by
    intro p hp
    refine h1.2 p fun q hq he => ?_
    exact hi q hq (he ▸ hp)
  have hg : gather (runAll blank (gssJobs read full enc dfltSuffix none imgs) s es).phase 0 (gssJobs read full enc dfltSuffix none imgs) =
      answer s (gssJobs read full enc dfltSuffix none imgs) := by
    refine (C123_partial blank _ s es (gss_apart read full enc dfltSuffix none imgs hd hi) ?_).2
    intro i hi'
    exact hend i (by simpa [gssJobs] using hi')
  have hans : ∃ l, answer s (gssJobs read full enc dfltSuffix none imgs) = .ok l := by
    have : ∀ l : List Str, (∀ p ∈ l, ∃ c, wanted read full enc s p = .ok c) → ∃ r, answer s (gssJobs read full enc dfltSuffix none l) = .ok r := by
      intro l
      induction l with
      | nil => intro _; exact ⟨[], rfl⟩
      | cons p l ih =>
        intro hl
        obtain ⟨r, hr⟩ := ih fun q hq => hl q (by simp [hq])
        obtain ⟨c, hc⟩ := hl p (by simp)
        have hal : alone s (gssJob read full enc dfltSuffix none p) = match (read (s p)).bind (full p) with
          | .error e => .refuse e
          | .ok px => .write (enc px) := rfl
        unfold wanted at hc
        refine ⟨some (saveName dfltSuffix none p) :: r, ?_⟩
        show (match (alone s (gssJob read full enc dfltSuffix none p)).ends with
          | .failed e => Except.error e
          | _ => (answer s (gssJobs read full enc dfltSuffix none l)).map
              ((gssJob read full enc dfltSuffix none p).out :: ·)) = _
        rw [hal, hr]
        cases hb : (read (s p)).bind (full p) with
        | error e => rw [hb] at hc; cases hc
        | ok px => rfl
    exact this imgs fun p hp => (hok p hp).1
  obtain ⟨l, hl⟩ := hans
  unfold bothRuns
  rw [hg, hl]
  simp only
  have h2 := (C191_partial blank read nb enc dfltSuffix none imgs (runAll blank (gssJobs read full enc dfltSuffix none imgs) s es).store es'
    hd hi hend').1 img himg
  rw [h2]
  have : wanted read nb enc (runAll blank (gssJobs read full enc dfltSuffix none imgs) s es).store img = wanted read nb enc s img := by
    unfold wanted
    rw [hsame img himg]
  rw [this, hc]

/-- the hypotheses are met by two images in a folder -/
example : ((["a", "b"].map String.toList).map (· ++ ".hdr".toList)).map (saveName dfltSuffix none) =
    ["a_rg.hdr".toList, "b_rg.hdr".toList] := by decide

end Verif.GssSave
