import Verif.Lemmas.HeaderText
import Verif.Props.Header
/-! # Headers laid out as a tree of sections: what `_preprocess` makes of them -/
namespace Verif.Header
open Verif.Py
namespace Forest

/-- one forest behind another -/
def append : Forest → Forest → Forest
  | nil, G => G
  | str s r, G => str s (append r G)
  | sec n d c r, G => sec n d c (append r G)

theorem append_nil (F : Forest) : append F nil = F := by
  induction F with
  | nil => rfl
  | str s r ih => simp [append, ih]
  | sec n d c r _ ih => simp [append, ih]

theorem append_assoc (F G H : Forest) : append (append F G) H = append F (append G H) := by
  induction F with
  | nil => rfl
  | str s r ih => simp [append, ih]
  | sec n d c r _ ih => simp [append, ih]

theorem pushStr_eq (s : Str) (F : Forest) : pushStr s F = append F (str s nil) := by
  induction F with
  | nil => rfl
  | str t r ih => simp [append, pushStr, ih]
  | sec n d c r _ ih => simp [append, pushStr, ih]

theorem pushSec_eq (n : Str) (d : Nat) (F : Forest) : pushSec n d F = append F (sec n d nil nil) := by
  induction F with
  | nil => rfl
  | str t r ih => simp [append, pushSec, ih]
  | sec n d c r _ ih => simp [append, pushSec, ih]

/-- a content inside of open sections, outermost first -/
def plug : List (Forest × Str) → Nat → Forest → Forest
  | [], _, C => C
  | (B, n) :: ctx, j, C => append B (sec n j (plug ctx (j + 1) C) nil)

theorem plug_snoc (ctx : List (Forest × Str)) (B : Forest) (n : Str) (j : Nat) (X : Forest) :
    plug (ctx ++ [(B, n)]) j X = plug ctx j (append B (sec n (j + ctx.length) X nil)) := by
  induction ctx generalizing j with
  | nil => rfl
  | cons p ctx ih =>
    obtain ⟨A, m⟩ := p
    simp only [List.cons_append, plug, ih, List.length_cons]
    rw [show j + 1 + ctx.length = j + (ctx.length + 1) by omega]

theorem lastSec_append (B : Forest) (n : Str) (d : Nat) (X : Forest) :
    lastSec (append B (sec n d X nil)) = some (d, X) := by
  induction B with
  | nil => rfl
  | str t r ih => simpa [append, lastSec] using ih
  | sec m e c r _ ih => simp [append, lastSec, ih]

theorem hasSec_append_sec (B : Forest) (n : Str) (d : Nat) (X : Forest) : hasSec (append B (sec n d X nil)) = true := by
  induction B with
  | nil => rfl
  | str t r ih => simpa [append, hasSec] using ih
  | sec => rfl

theorem modLastSec_append (g : Forest → Except PyErr Forest) (B : Forest) (n : Str) (d : Nat) (X : Forest) :
    modLastSec g (append B (sec n d X nil)) = (g X).map fun Y => append B (sec n d Y nil) := by
  induction B with
  | nil =>
    simp only [append, modLastSec, hasSec]
    cases g X <;> rfl
  | str t r ih =>
    simp only [append, modLastSec, ih]
    cases g X <;> rfl
  | sec m e c r _ ih =>
    simp only [append, modLastSec, hasSec_append_sec, if_true, ih]
    cases g X <;> rfl

theorem modAt_plug (ctx : List (Forest × Str)) (j : Nat) (C : Forest) (f : Forest → Except PyErr Forest) :
    modAt ctx.length f (plug ctx j C) = (f C).map (plug ctx j) := by
  induction ctx generalizing j with
  | nil => simp only [List.length_nil, modAt, plug]; cases f C <;> rfl
  | cons p ctx ih =>
    obtain ⟨B, n⟩ := p
    simp only [List.length_cons, modAt, plug, modLastSec_append, ih]
    cases f C <;> rfl

theorem getAt_plug (ctx : List (Forest × Str)) (j : Nat) (C : Forest) (k : Nat) :
    getAt (ctx.length + k) (plug ctx j C) = getAt k C := by
  induction ctx generalizing j with
  | nil => simp [plug]
  | cons p ctx ih =>
    obtain ⟨B, n⟩ := p
    rw [show ((B, n) :: ctx).length + k = (ctx.length + k) + 1 by simp; omega]
    simp [plug, getAt, lastSec_append, ih]

/-- how many sections are still open at the end -/
def openLen : Forest → Nat
  | nil => 0
  | str _ r => openLen r
  | sec _ _ c nil => 1 + openLen c
  | sec _ _ _ r => openLen r

theorem openLen_append_str (F : Forest) (s : Str) : openLen (append F (str s nil)) = 0 := by
  induction F with
  | nil => rfl
  | str t r ih => simpa [append, openLen] using ih
  | sec n d c r _ ih =>
    cases r <;> simp_all [append, openLen]

theorem openLen_append_sec (F : Forest) (n : Str) (d : Nat) (c : Forest) :
    openLen (append F (sec n d c nil)) = 1 + openLen c := by
  induction F with
  | nil => rfl
  | str t r ih => simpa [append, openLen] using ih
  | sec m e b r _ ih =>
    cases r <;> simp_all [append, openLen]

/-! ## layout -/

/-- the lines of a forest, one tabulator per level -/
def render : Nat → Forest → List Str
  | _, nil => []
  | k, str s r => (List.replicate k '\t' ++ s) :: render k r
  | k, sec n _ c r => (List.replicate k '\t' ++ (n ++ [':'])) :: (render (k + 1) c ++ render k r)

/-- sections are numbered by level -/
def Reg : Nat → Forest → Prop
  | _, nil => True
  | k, str _ r => Reg k r
  | k, sec _ d c r => d = k ∧ Reg (k + 1) c ∧ Reg k r

/-- no section follows one that ends in a section (`m` sections are open) -/
def SecOk : Nat → Forest → Prop
  | _, nil => True
  | _, str _ r => SecOk 0 r
  | m, sec _ _ c r => m ≤ 1 ∧ SecOk 0 c ∧ SecOk (1 + openLen c) r

/-- the key of the last line, `none` behind a section title -/
def endPrev : Option Str → Forest → Option Str
  | p, nil => p
  | _, str s r => endPrev (some (keyVal s).1) r
  | _, sec _ _ c r => endPrev (endPrev none c) r

/-- no two entries in a row have the same key -/
def KeysOk : Option Str → Forest → Prop
  | _, nil => True
  | p, str s r => p ≠ some (keyVal s).1 ∧ KeysOk (some (keyVal s).1) r
  | _, sec _ _ c r => KeysOk none c ∧ KeysOk (endPrev none c) r

end Forest
open Forest

/-- an entry as it should be: `key=value` or `key value`, without blanks at the ends, and none of the lines with a meaning of
their own -/
structure Canon (s : Str) : Prop where
  nb : NB s
  head : ∃ a t, s = a :: t ∧ isSpace a = false
  clean : cleanLine s = s
  entry : isSectionText s = false
  same : norm s = s
  key : (keyVal s).1 ∉ ["pvalue".toList, "FORMAT".toList, "VIEW".toList, "...".toList]

/-- a section title as it should be -/
structure Title (n : Str) : Prop where
  nb : NB n
  head : ∃ a t, n = a :: t ∧ isSpace a = false
  clean : cleanLine (n ++ [':']) = n ++ [':']
  slash : '/' ∉ n

theorem cleanLine_tabs (k : Nat) (s : Str) : cleanLine (List.replicate k '\t' ++ s) = cleanLine s := by
  unfold cleanLine
  induction k with
  | zero => rfl
  | succ k ih => rw [List.replicate_succ, List.cons_append, Conv.strip_cons _ _ (by decide), ih]

theorem insetLen_tabs (k : Nat) : insetLen (List.replicate k '\t') = k := by
  induction k with
  | zero => rfl
  | succ k ih => rw [List.replicate_succ]; simp [insetLen, ih]

theorem lineDepth_tabs (k : Nat) (s : Str) (h : ∃ a t, s = a :: t ∧ isSpace a = false) :
    lineDepth (List.replicate k '\t' ++ s) = k := by
  obtain ⟨a, t, rfl, ha⟩ := h
  unfold lineDepth
  rw [(takeWhile_append_stop isSpace (List.replicate k '\t') a t (by
    intro x hx; rw [List.eq_of_mem_replicate hx]; decide) ha).1, insetLen_tabs]

theorem Title.isSection {n : Str} (h : Title n) : isSectionText (n ++ [':']) = true := by
  obtain ⟨a, t, rfl, -⟩ := h.head
  simp [isSectionText, List.getLast?_cons]

theorem Title.name {n : Str} (h : Title n) : sectionName (n ++ [':']) = n := by
  unfold sectionName
  have : ∀ x ∈ (n ++ [':']).reverse, decide (x ≠ '/') = true := by
    intro x hx
    simp only [List.mem_reverse, List.mem_append, List.mem_singleton] at hx
    rcases hx with hx | rfl
    · simp only [ne_eq, decide_not, Bool.not_eq_eq_eq_not, Bool.not_true, decide_eq_false_iff_not]
      rintro rfl; exact h.slash hx
    · decide
  rw [List.takeWhile_eq_self_iff.2 this, List.reverse_reverse]
  simp

theorem csLine_range (k m : Nat) : csLine (List.range (k + m)) k = List.range k := by
  rcases Nat.eq_zero_or_pos (k + m) with h | h
  · have : k = 0 := by omega
    subst this
    rw [h]; rfl
  · obtain ⟨j, hj⟩ : ∃ j, k + m = j + 1 := ⟨k + m - 1, by omega⟩
    rw [hj, C16_entries_partial, Spec.enclosing, takeWhile_range]
    congr 1; omega

theorem csSection_range (k m : Nat) (hm : m ≤ 1) : csSection (List.range (k + m)) k = List.range k := by
  rcases Nat.eq_zero_or_pos (k + m) with h | h
  · have : k = 0 := by omega
    subst this
    rw [h]; rfl
  · obtain ⟨j, hj⟩ : ∃ j, k + m = j + 1 := ⟨k + m - 1, by omega⟩
    rw [hj, (C16_sections_iff j k).2 (by omega), Spec.enclosing, takeWhile_range]
    congr 1; omega

theorem step_entry (st : St) (ctx : List (Forest × Str)) (C : Forest) (s : Str) (hs : Canon s)
    (hF : st.files = plug ctx 0 C) (hcs : st.cs = List.range (ctx.length + openLen C))
    (hv : s ∉ st.vals) (hk : (keyVal s).1 ≠ st.lastkey ∨ getAt st.cs.length st.files = some .nil) :
    step st (List.replicate ctx.length '\t' ++ s) =
      .ok ⟨plug ctx 0 (append C (.str s .nil)), st.view, s :: st.vals, List.range ctx.length, (keyVal s).1⟩ := by
  have hkeys := hs.key
  simp only [List.mem_cons, List.not_mem_nil, or_false, not_or] at hkeys
  obtain ⟨k1, k2, k3, k4⟩ := hkeys
  have hkept : isKept (List.replicate ctx.length '\t' ++ s) := by
    unfold isKept
    rw [cleanLine_tabs, hs.clean]
    exact ⟨hs.entry, k1, k2, k3⟩
  rw [step_kept st _ hkept, cleanLine_tabs, hs.clean, lineDepth_tabs _ _ hs.head]
  unfold keepStep
  rw [if_neg (by
    rintro (h | ⟨h, h'⟩)
    · exact k4 h
    · rcases hk with hk | hk
      · exact hk h
      · exact h' hk), if_neg hv, hs.same]
  unfold newStep
  rw [hcs, csLine_range]
  simp only [List.length_range]
  rw [hF, modAt_plug]
  rw [pushStr_eq]
  rfl

theorem step_title (st : St) (ctx : List (Forest × Str)) (C : Forest) (n : Str) (hn : Title n)
    (hF : st.files = plug ctx 0 C) (hcs : st.cs = List.range (ctx.length + openLen C)) (hm : openLen C ≤ 1) :
    step st (List.replicate ctx.length '\t' ++ (n ++ [':'])) =
      .ok ⟨plug (ctx ++ [(C, n)]) 0 .nil, st.view, st.vals, List.range (ctx.length + 1), st.lastkey⟩ := by
  unfold step
  have hh : ∃ a t, n ++ [':'] = a :: t ∧ isSpace a = false := by
    obtain ⟨a, t, rfl, ha⟩ := hn.head
    exact ⟨a, t ++ [':'], rfl, ha⟩
  rw [cleanLine_tabs, hn.clean, if_pos hn.isSection, lineDepth_tabs _ _ hh]
  unfold sectionStep
  rw [hcs, csSection_range _ _ hm]
  simp only [List.length_range]
  rw [hF, modAt_plug, plug_snoc, pushSec_eq, hn.name, List.range_succ, Nat.zero_add]
  rfl

/-- `_preprocess` rebuilds a tree that is laid out properly. -/
theorem run_render (F : Forest) (k : Nat) (st : St) (ctx : List (Forest × Str)) (C : Forest) (p : Option Str)
    (hk : ctx.length = k) (hF : st.files = plug ctx 0 C) (hcs : st.cs = List.range (k + openLen C))
    (hreg : Reg k F) (hall : all Canon Title F) (hsec : SecOk (openLen C) F) (hkeys : KeysOk p F)
    (hp : p = some st.lastkey ∨ getAt st.cs.length st.files = some .nil) (hnd : (strs F).Nodup)
    (hv : ∀ s ∈ strs F, s ∉ st.vals) :
    ∃ lk, run st (render k F) =
        .ok ⟨plug ctx 0 (append C F), st.view, (strs F).reverse ++ st.vals, List.range (k + openLen (append C F)), lk⟩ ∧
      (endPrev p F = some lk ∨ getAt (k + openLen (append C F)) (plug ctx 0 (append C F)) = some .nil) := by
  induction F generalizing k st ctx C p with
  | nil =>
    refine ⟨st.lastkey, ?_, ?_⟩
    · simp only [render, run, append_nil, strs, List.reverse_nil, List.nil_append, ← hF, ← hcs]
    · rw [append_nil, ← hF]
      rw [hcs, List.length_range] at hp
      exact hp
  | str s r ih =>
    obtain ⟨hs, hall'⟩ := hall
    obtain ⟨hne, hkeys'⟩ := hkeys
    subst hk
    have hstep := step_entry st ctx C s hs hF hcs (hv s (by simp [strs])) (by
      rcases hp with rfl | hp
      · exact Or.inl fun h => hne (by rw [h])
      · exact Or.inr hp)
    have hnd' := List.nodup_cons.1 (show (s :: strs r).Nodup from hnd)
    obtain ⟨lk, h1, h2⟩ := ih ctx.length ⟨plug ctx 0 (append C (.str s .nil)), st.view, s :: st.vals, List.range ctx.length,
      (keyVal s).1⟩ ctx (append C (.str s .nil)) (some (keyVal s).1) rfl rfl (by rw [openLen_append_str]; rfl) hreg hall'
      (by rw [openLen_append_str]; exact hsec) hkeys' (Or.inl rfl) hnd'.2 (by
        intro t ht
        rw [List.mem_cons, not_or]
        exact ⟨fun h => hnd'.1 (h ▸ ht), hv t (by simp [strs, ht])⟩)
    rw [append_assoc] at h1 h2
    refine ⟨lk, ?_, h2⟩
    simp only [render, run]
    rw [hstep]
    change run _ _ = _
    rw [h1]
    simp [strs, append]
  | sec n d c r ihc ihr =>
    obtain ⟨hn, hac, har⟩ := hall
    obtain ⟨rfl, hrc, hrr⟩ := hreg
    obtain ⟨hm, hsc, hsr⟩ := hsec
    obtain ⟨hkc, hkr⟩ := hkeys
    subst hk
    have hstep := step_title st ctx C n hn hF hcs hm
    have hnd' := List.nodup_append.1 (show (strs c ++ strs r).Nodup from hnd)
    obtain ⟨lk, h1, h2⟩ := ihc (ctx.length + 1) ⟨plug (ctx ++ [(C, n)]) 0 .nil, st.view, st.vals,
      List.range (ctx.length + 1), st.lastkey⟩ (ctx ++ [(C, n)]) .nil none (by simp) rfl rfl hrc hac hsc hkc
      (by
        right
        have := getAt_plug (ctx ++ [(C, n)]) 0 .nil 0
        simpa [getAt] using this) hnd'.1 (fun s hs => hv s (by simp [strs, hs]))
    simp only [append] at h1 h2
    simp only [plug_snoc, Nat.zero_add] at h1 h2 hstep
    obtain ⟨lk', h3, h4⟩ := ihr ctx.length ⟨plug ctx 0 (append C (.sec n ctx.length c .nil)), st.view,
      (strs c).reverse ++ st.vals, List.range (ctx.length + 1 + openLen c), lk⟩ ctx (append C (.sec n ctx.length c .nil))
      (endPrev none c) rfl rfl (by rw [openLen_append_sec, Nat.add_assoc]) hrr har (by rw [openLen_append_sec]; exact hsr) hkr
      (by simpa using h2) hnd'.2.1 (by
        intro s hs
        rw [List.mem_append, List.mem_reverse, not_or]
        exact ⟨fun h => hnd'.2.2 s h s hs rfl, hv s (by simp [strs, hs])⟩)
    rw [append_assoc] at h3 h4
    refine ⟨lk', ?_, h4⟩
    simp only [render, run]
    rw [hstep]
    change run _ _ = _
    rw [run_append, h1]
    change run _ _ = _
    rw [h3]
    simp [strs, append]

/-- every section has an entry of its own -/
def Tidy : Forest → Prop
  | .nil => True
  | .str _ r => Tidy r
  | .sec _ _ c r => c.allSec = false ∧ Tidy c ∧ Tidy r

theorem cleanUp_render (F : Forest) (k : Nat) (hreg : Reg k F) (ht : Tidy F) : cleanUp ((k : Int) - 1) 0 F = render k F := by
  induction F generalizing k with
  | nil => rfl
  | str s r ih =>
    simp only [cleanUp, render, ih k hreg ht]
    rw [show ((k : Int) - 1 + 1 - 0).toNat = k by omega]
  | sec n d c r ihc ihr =>
    obtain ⟨rfl, hrc, hrr⟩ := hreg
    obtain ⟨h1, h2, h3⟩ := ht
    have hc : c ≠ .nil := by rintro rfl; simp [allSec] at h1
    have ih := ihc (d + 1) hrc h2
    rw [show (((d + 1 : Nat) : Int) - 1) = d by push_cast; omega] at ih
    simp only [cleanUp, render, hc, if_false, h1, Bool.false_eq_true, ihr d hrr h3, ih]
    rw [show ((d : Int) - 0).toNat = d by omega]
    simp [List.append_assoc]

theorem render_mem (F : Forest) (k : Nat) : ∀ l ∈ render k F, ∃ j t, l = List.replicate j '\t' ++ t ∧
    (t ∈ strs F ∨ ∃ n, t = n ++ [':'] ∧ (∀ P Q, all P Q F → Q n)) := by
  induction F generalizing k with
  | nil => simp [render]
  | str s r ih =>
    intro l hl
    rcases List.mem_cons.1 hl with rfl | hl
    · exact ⟨k, s, rfl, Or.inl (by simp [strs])⟩
    · obtain ⟨j, t, h1, h2⟩ := ih k l hl
      refine ⟨j, t, h1, ?_⟩
      rcases h2 with h2 | ⟨n, h2, h3⟩
      · exact Or.inl (by simp [strs, h2])
      · exact Or.inr ⟨n, h2, fun P Q h => h3 P Q h.2⟩
  | sec n d c r ihc ihr =>
    intro l hl
    rcases List.mem_cons.1 hl with rfl | hl
    · exact ⟨k, _, rfl, Or.inr ⟨n, rfl, fun P Q h => h.1⟩⟩
    · rcases List.mem_append.1 hl with hl | hl
      · obtain ⟨j, t, h1, h2⟩ := ihc (k + 1) l hl
        refine ⟨j, t, h1, ?_⟩
        rcases h2 with h2 | ⟨n, h2, h3⟩
        · exact Or.inl (by simp [strs, h2])
        · exact Or.inr ⟨n, h2, fun P Q h => h3 P Q h.2.1⟩
      · obtain ⟨j, t, h1, h2⟩ := ihr k l hl
        refine ⟨j, t, h1, ?_⟩
        rcases h2 with h2 | ⟨n, h2, h3⟩
        · exact Or.inl (by simp [strs, h2])
        · exact Or.inr ⟨n, h2, fun P Q h => h3 P Q h.2.2⟩

theorem all_strs (P Q : Str → Prop) (F : Forest) (h : all P Q F) : ∀ s ∈ strs F, P s := by
  induction F with
  | nil => simp [strs]
  | str s r ih => simpa [strs] using ⟨h.1, ih h.2⟩
  | sec n d c r ihc ihr =>
    intro s hs
    rcases List.mem_append.1 hs with hs | hs
    · exact ihc h.2.1 s hs
    · exact ihr h.2.2 s hs

theorem all_mono {P Q P' Q' : Str → Prop} (hP : ∀ s, P s → P' s) (hQ : ∀ s, Q s → Q' s) (F : Forest) (h : all P Q F) :
    all P' Q' F := by
  induction F with
  | nil => trivial
  | str s r ih => exact ⟨hP _ h.1, ih h.2⟩
  | sec n d c r ihc ihr => exact ⟨hQ _ h.1, ihc h.2.1, ihr h.2.2⟩

theorem Canon.good {s : Str} (h : Canon s) : Good s := by
  obtain ⟨a, t, rfl, -⟩ := h.head
  exact ⟨by simp, h.nb⟩

theorem render_good (F : Forest) (h : all Canon Title F) : ∀ l ∈ render 0 F, l ≠ [] ∧ NB l := by
  intro l hl
  obtain ⟨j, t, rfl, h2⟩ := render_mem F 0 l hl
  rcases h2 with h2 | ⟨n, rfl, h3⟩
  · have := (all_strs _ _ F h t h2).good
    exact ⟨by simp [this.1], NB.append (NB_tabs j) this.2⟩
  · have := h3 _ _ h
    exact ⟨by simp, NB.append (NB_tabs j) (NB.append this.nb (by intro c hc; rw [List.mem_singleton.1 hc]; decide))⟩

/-- a header laid out as a tree of sections without repetitions -/
structure TreeOk (T : Forest) : Prop where
  reg : Reg 0 T
  lines : all Canon Title T
  secs : SecOk 0 T
  keys : KeysOk none T
  nodup : (strs T).Nodup

theorem run_tree (T : Forest) (h : TreeOk T) : ∃ lk, run St.init (render 0 T) =
    .ok ⟨T, none, (strs T).reverse, List.range (openLen T), lk⟩ := by
  obtain ⟨lk, h1, -⟩ := run_render T 0 St.init [] .nil none rfl rfl rfl h.reg h.lines h.secs h.keys (Or.inr rfl) h.nodup
    (by simp [St.init])
  refine ⟨lk, ?_⟩
  rw [h1]
  simp [plug, append, St.init]

end Verif.Header
