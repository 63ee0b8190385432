import Verif.Lemmas.HeaderFlat
import Verif.Props.HeaderTree
import Verif.Props.Textwrap
import Verif.Lemmas.Unwrap
/-! # Values and their keys in cleaned headers: C132, C133 -/
namespace Verif.Header
open Verif.Py Forest Spec Verif.Textwrap

/-- the headers considered: blocks of lines with different keys; VIEW, FORMAT and pvalue lines may stand anywhere in between -/
structure BlocksOk (lines : List Str) (bs : List Block) : Prop where
  ok : ∀ b ∈ bs, b.Ok
  keys : (bs.map Block.key).Nodup
  lines : lines.filter (fun l => !decide (isDropped l)) = (bs.map Block.lines).flatten

theorem run_text (text : Str) (bs : List Block) (h : BlocksOk (splitlines text) bs) :
    ∃ lk, run St.init (splitlines text) = .ok ⟨ofList (bs.map Block.entry), lastView (splitlines text),
      (bs.map Block.entry).reverse, [], lk⟩ := by
  have hr0 := run_views St.init (splitlines text)
  rw [h.lines] at hr0
  obtain ⟨lk, hr⟩ := run_blocks bs h.ok h.keys [] none [] (Or.inl rfl) (by simp)
  have e : St.init.setView none = ⟨ofList [], none, [].reverse, [], []⟩ := rfl
  rw [e, hr] at hr0
  refine ⟨lk, ?_⟩
  rw [hr0]
  simp [Except.map, St.setView, St.init]

theorem entries_good (text : Str) (bs : List Block) (h : BlocksOk (splitlines text) bs) : ∀ b ∈ bs, Good b.entry := by
  obtain ⟨lk, hr⟩ := run_text text bs h
  have hg := good_run text _ hr
  have : ∀ l : List Str, all Good NB (ofList l) → ∀ s ∈ l, Good s := by
    intro l
    induction l with
    | nil => simp
    | cons a l ih =>
      intro h s hs
      rcases List.mem_cons.1 hs with rfl | hs
      · exact h.1
      · exact ih h.2 s hs
  exact fun b hb => this _ hg _ (List.mem_map_of_mem hb)

theorem cleanText_blocks (wrap : Nat → Str → Str → List Str) (hwr : WrapOk wrap) (w : Nat) (text : Str) (bs : List Block)
    (h : BlocksOk (splitlines text) bs) :
    cleanText wrap w text = .ok ((bs.map fun b => wrapped wrap w b.entry).flatten ++ viewLine (lastView (splitlines text))) := by
  obtain ⟨lk, hr1⟩ := run_text text bs h
  have hg := good_run text _ hr1
  unfold cleanText
  rw [hr1]
  change Except.ok _ = _
  rw [assemble_eq wrap hwr w _ hg]
  simp only [cleanUp_ofList, List.map_map]
  congr 2

/-! ## C133: values stay with their keys -/

/-- **C133**, the full claim: every word of a value in the cleaned header (without wrapping) belongs to the same key in the given
header, if that has no continuation lines. -/
def C133_statement : Prop :=
  ∀ lines out : List Str, (∀ l ∈ lines, (keyVal (cleanLine l)).1 ≠ "...".toList) → cleanHeader noWrap lines = .ok out →
    ∀ l ∈ out, isSectionText (strip l) = false → ∀ x ∈ tokens (keyVal (strip l)).2,
      ∃ h ∈ lines, (keyVal (cleanLine h)).1 = (keyVal (strip l)).1 ∧ x ∈ tokens (keyVal (cleanLine h)).2

/-- The claim is false: after a repeated line, the next line of its key is added to the entry of another key. -/
theorem C133_refuted : ¬ C133_statement := by
  intro h
  have h1 : cleanHeader noWrap ["A= 1".toList, "B= 2".toList, "A= 1".toList, "A= 3".toList] =
    .ok ["A= 1".toList, "B= 2 3".toList] := by decide +kernel
  have h2 := h _ _ (by decide +kernel) h1 "B= 2 3".toList (by simp) (by decide +kernel) "3".toList (by decide +kernel)
  revert h2
  decide +kernel

/-- **C133** for headers where the lines of a key stand together: one entry for each key, with its values one behind the other.
Missing: headers with sections or where a key comes back, see `C133_refuted`. -/
theorem C133_partial (wrap : Nat → Str → Str → List Str) (hwr : WrapOk wrap) (lines : List Str) (bs : List Block)
    (hne : ∀ l ∈ lines, l ≠ [] ∧ NB l) (h : BlocksOk lines bs) (hs : ∀ b ∈ bs, b.entry.length ≤ 150) :
    cleanHeader wrap lines = .ok (bs.map Block.entry ++ viewLine (lastView lines)) := by
  unfold cleanHeader
  have e := splitlines_join lines hne
  rw [cleanText_blocks wrap hwr 150 _ bs (by rw [e]; exact h), e]
  congr 2
  have : bs.map (fun b => wrapped wrap 150 b.entry) = (bs.map Block.entry).map (wrapped wrap 150) := by simp
  rw [this]
  exact wrapped_short wrap hwr 150 _ (by
    intro l hl
    obtain ⟨b, hb, rfl⟩ := List.mem_map.1 hl
    exact ⟨by unfold Block.entry; simp, hs b hb⟩)

/-! ## C132: cleaning twice -/

theorem go_prefix (s cur : Str) (hc : cur ≠ []) :
    tokens.go cur s = (cur.reverse ++ s.takeWhile fun c => !isSpace c) :: tokens (s.dropWhile fun c => !isSpace c) := by
  induction s generalizing cur with
  | nil => simp [tokens.go, tokens, hc]
  | cons a s ih =>
    rw [tokens.go, List.takeWhile_cons, List.dropWhile_cons]
    cases ha : isSpace a
    · simp only [Bool.false_eq_true, if_false, Bool.not_false, if_true]
      rw [ih _ (by simp)]
      simp
    · simp only [Bool.not_true, Bool.false_eq_true, if_false, if_true, List.isEmpty_iff, hc]
      rw [tokens_cons_space s a ha]
      simp [tokens]

theorem tokens_split (s : Str) : tokens s =
    if (s.takeWhile fun c => !isSpace c) = [] then tokens (s.dropWhile fun c => !isSpace c)
    else (s.takeWhile fun c => !isSpace c) :: tokens (s.dropWhile fun c => !isSpace c) := by
  cases s with
  | nil => rfl
  | cons a s =>
    cases ha : isSpace a
    · rw [tokens_def, tokens.go, if_neg (by simp [ha]), go_prefix _ _ (by simp)]
      simp [ha]
    · simp [ha]

theorem tokens_prefix (a s : Str) (ha : a ≠ []) (h : ∀ c ∈ a, isSpace c = false) :
    tokens (a ++ s) = (a ++ s.takeWhile fun c => !isSpace c) :: tokens (s.dropWhile fun c => !isSpace c) := by
  cases a with
  | nil => exact absurd rfl ha
  | cons c a =>
    rw [List.cons_append, tokens_def, tokens.go, if_neg (by simp [h c]), go_prefix _ _ (by simp),
      List.takeWhile_append_of_pos fun x hx => by simp [h x (by simp [hx])],
      List.dropWhile_append_of_pos fun x hx => by simp [h x (by simp [hx])]]
    simp

/-- the words behind a word part -/
theorem tokens_cancel (a s t : Str) (ha : a ≠ []) (h : ∀ c ∈ a, isSpace c = false) (he : tokens (a ++ s) = tokens (a ++ t)) :
    tokens s = tokens t := by
  rw [tokens_prefix a s ha h, tokens_prefix a t ha h] at he
  injection he with h1 h2
  have h1 := List.append_cancel_left h1
  rw [tokens_split s, tokens_split t, h1, h2]

theorem rstrip_cons (c : Char) (s : Str) :
    rstrip (c :: s) = if rstrip s = [] then (if isSpace c then [] else [c]) else c :: rstrip s := by
  unfold rstrip
  rw [List.reverse_cons, List.dropWhile_append]
  by_cases h : s.reverse.dropWhile isSpace = []
  · rw [h]
    cases hc : isSpace c <;> simp [hc]
  · simp [h]

theorem strip_kv (k v : Str) (hk : ∀ c ∈ k, isSpace c = false) : strip (k ++ '=' :: v) = k ++ '=' :: rstrip v := by
  have h1 : lstrip (k ++ '=' :: v) = k ++ '=' :: v := by
    unfold lstrip
    cases k with
    | nil => rfl
    | cons a k => simp [hk a]
  unfold strip
  rw [h1]
  clear h1
  induction k with
  | nil =>
    rw [List.nil_append, rstrip_cons, List.nil_append]
    by_cases h : rstrip v = []
    · rw [if_pos h, h]; rfl
    · rw [if_neg h]
  | cons a k ih =>
    rw [List.cons_append, rstrip_cons, ih fun c hc => hk c (by simp [hc]), if_neg (by simp)]
    rfl

theorem rstrip_kv (k v : Str) (hk : ∀ c ∈ k, isSpace c = false) : rstrip (k ++ '=' :: v) = k ++ '=' :: rstrip v := by
  rw [← strip_kv k v hk]
  unfold strip
  have h1 : lstrip (k ++ '=' :: v) = k ++ '=' :: v := by
    unfold lstrip
    cases k with
    | nil => rfl
    | cons a k => simp [hk a]
  rw [h1]

theorem length_strip_space (q : Str) : (lstrip (rstrip (' ' :: q))).length ≤ q.length := by
  rw [rstrip_cons]
  split_ifs with h h2
  · simp [lstrip]
  · exact absurd (by decide) h2
  · have e : lstrip (' ' :: rstrip q) = lstrip (rstrip q) := rfl
    rw [e]
    have h1 : (lstrip (rstrip q)).length ≤ (rstrip q).length := List.length_dropWhile_le _ _
    have h2 : (rstrip q).length ≤ q.length := by
      unfold rstrip
      rw [List.length_reverse]
      exact (List.length_dropWhile_le _ _).trans (by simp)
    omega

theorem tokens_spaced_list (a : Str) (L : List Str) :
    tokens (a ++ (L.map (' ' :: ·)).flatten) = tokens a ++ (L.map tokens).flatten := by
  induction L generalizing a with
  | nil => simp
  | cons q L ih =>
    rw [List.map_cons, List.flatten_cons, ← List.append_assoc, ih, tokens_space_mid _ _ _ (by decide)]
    simp

theorem sum_le {α : Type} (L : List α) (f g : α → Str) (h : ∀ x ∈ L, (f x).length ≤ (g x).length) :
    ((L.map f).flatten).length ≤ ((L.map g).flatten).length := by
  induction L with
  | nil => simp
  | cons a L ih =>
    simp only [List.map_cons, List.flatten_cons, List.length_append]
    have := h a (by simp)
    have := ih fun x hx => h x (by simp [hx])
    omega

/-- What an entry must be like for its lines to be put together again: a key without blanks, no hyphen `textwrap` may break at,
words (and runs of blanks) that fit on a line, no word ending in a colon, no name of a temporary file, and not too long. -/
structure Rejoins (cls : Cls) (b : Block) : Prop where
  key : ∀ c ∈ b.key, isSpace c = false
  hyph : unbroken cls [] b.entry = true
  short : ∀ c ∈ split cls b.entry, c.length + b.key.length + 2 ≤ 150
  colon : ∀ x ∈ tokens b.entry, x.getLast? ≠ some ':'
  clasp : ¬ "clasp_tmp".toList <:+: b.entry
  len : b.entry.length ≤ 2048

/-- Such entries in words of the text: hyphens only begin words, and no word (or run of blanks) is too long for its line. -/
theorem Rejoins.of_words (cls : Cls) (hk : ∀ c, isWs c = true → cls.word c = false) (b : Block)
    (key : ∀ c ∈ b.key, isSpace c = false)
    (hyph : ∀ p q, b.entry = p ++ '-' :: q → p = [] ∨ ∃ p', p = p' ++ [' '] ∨ p = p' ++ ['\t'])
    (short : ∀ x, x <:+: b.entry → ((∀ c ∈ x, isWs c = true) ∨ ∀ c ∈ x, isWs c = false) → x.length + b.key.length + 2 ≤ 150)
    (colon : ∀ x ∈ tokens b.entry, x.getLast? ≠ some ':') (clasp : ¬ "clasp_tmp".toList <:+: b.entry)
    (len : b.entry.length ≤ 2048) : Rejoins cls b where
  key := key
  hyph := unbroken_options cls hk _ hyph
  short := by
    intro c hc
    obtain ⟨h1, h2⟩ := split_runs cls _ (unbroken_options cls hk _ hyph) c hc
    exact short c h1 h2
  colon := colon
  clasp := clasp
  len := len

/-- the value of an entry -/
def Block.value (b : Block) : Str := b.first.2 ++ (b.more.map fun p => ' ' :: lstrip p.2).flatten

theorem Block.entry_eq (b : Block) : b.entry = b.key ++ '=' :: b.value := rfl

theorem not_section (s : Str) (h : ∀ x ∈ tokens s, x.getLast? ≠ some ':') : isSectionText (rstrip s) = false := by
  unfold isSectionText
  by_cases h0 : rstrip s = []
  · rw [h0]; rfl
  · obtain ⟨x, h1, h2⟩ := last_token s h0
    have := h x h1
    rw [h2] at this
    simp [this]

theorem contIndent_entry (k v : Str) (hk : ∀ c ∈ k, isSpace c = false) (he : '=' ∉ k) :
    contIndent (k ++ '=' :: v) = k ++ "= ".toList := by
  unfold contIndent
  rw [strip_kv k v hk, if_pos (by simp)]
  have h1 : (k ++ '=' :: v).takeWhile isSpace = [] := by
    cases k with
    | nil => rfl
    | cons a k => simp [hk a]
  rw [h1, List.nil_append, (takeWhile_append_stop (· ≠ '=') k '=' _ (by intro x hx; simp; rintro rfl; exact he hx) (by simp)).1]

/-- the lines an entry is broken into are a block with the same key and the same words -/
theorem rewrap (cls : Cls) (b : Block) (hb : b.Ok) (h : Rejoins cls b) :
    ∃ b' : Block, wrapped (textwrap cls) 150 b.entry = b'.lines ∧ b'.Ok ∧ b'.key = b.key ∧ tokens b'.entry = tokens b.entry ∧
      b'.entry.length ≤ 4096 := by
  have hns : ∀ c ∈ b.key ++ ['='], isSpace c = false := by
    intro c hc
    rcases List.mem_append.1 hc with hc | hc
    · exact h.key c hc
    · rw [List.mem_singleton] at hc; subst hc; decide
  have hws : ∀ c ∈ b.key ++ ['='], isWs c = false := by
    intro c hc
    cases hw : isWs c
    · rfl
    · have := isWs_isSpace c hw
      rw [hns c hc] at this
      cases this
  have hci := contIndent_entry b.key b.value h.key hb.key.plain
  have hne : b.entry ≠ [] := by rw [Block.entry_eq]; simp
  -- the first chunk
  obtain ⟨c0, l0, hc0, hl0⟩ : ∃ t l0, split cls b.entry = (b.key ++ '=' :: t) :: l0 ∧ b.value = t ++ l0.flatten := by
    have hcons : ∃ a s, b.entry = a :: s ∧ isWs a = false := by
      rw [Block.entry_eq]
      cases hk : b.key with
      | nil => exact ⟨_, _, rfl, by decide⟩
      | cons a s => exact ⟨_, _, rfl, hws a (by simp [hk])⟩
    obtain ⟨a, s, hs, ha⟩ := hcons
    obtain ⟨l, hl⟩ := split_head cls a s (by rw [← hs]; exact h.hyph)
    have h1 : (a :: s).takeWhile (fun x => isWs x == isWs a) = b.key ++ '=' :: b.value.takeWhile (fun x => isWs x == isWs a) := by
      rw [← hs, Block.entry_eq, show b.key ++ '=' :: b.value = (b.key ++ ['=']) ++ b.value by simp,
        List.takeWhile_append_of_pos fun x hx => by simp [hws x hx, ha]]
      simp
    rw [h1] at hl
    refine ⟨_, l, by rw [hs, hl], ?_⟩
    have h2 := split_flatten cls (a :: s)
    rw [hl, ← hs, Block.entry_eq, List.flatten_cons, List.append_assoc] at h2
    have := List.append_cancel_left h2
    injection this with _ this
    exact this.symm
  have hind : (contIndent b.entry).length = b.key.length + 2 := by
    rw [Block.entry_eq, hci]; simp
  have hroom : b.key.length + 2 ≤ 150 := by
    have := h.short (b.key ++ '=' :: c0) (by rw [hc0]; simp)
    omega
  obtain ⟨r, hr⟩ := wrapRun_ends cls 150 (contIndent b.entry) b.entry (Or.inl (by rw [hind]; exact hroom))
  have htw : textwrap cls 150 (contIndent b.entry) b.entry = r := by unfold textwrap; rw [hr]; rfl
  obtain ⟨G, hG, rfl, hGne⟩ := wrapGo_groups 150 _ _ _ (by omega) _ _ (by
    intro c hc
    have := h.short c hc
    rw [hind]
    push_cast
    omega) hr
  have hsep := split_sep cls b.entry h.hyph
  have hsne := split_ne_nil cls b.entry
  have hfl := split_flatten cls b.entry
  rw [← hG] at hsep hsne hfl
  -- words of the groups
  have htok : ∀ G : List (List Str), Sep G.flatten → (∀ c ∈ G.flatten, c ≠ []) →
      tokens G.flatten.flatten = (G.map fun g => tokens g.flatten).flatten := by
    intro G
    induction G with
    | nil => intro _ _; rfl
    | cons g G ih =>
      intro hs hn
      rw [List.flatten_cons] at hs hn
      rw [List.flatten_cons, hs.tokens hn, List.map_append, List.flatten_append, List.map_cons, List.flatten_cons, ← ih hs.append.2 fun c hc => hn c (by simp [hc]),
        hs.append.1.tokens fun c hc => hn c (by simp [hc]), hs.append.2.tokens fun c hc => hn c (by simp [hc])]
  have ht := htok G hsep hsne
  rw [hfl] at ht
  cases G with
  | nil => rw [hc0] at hG; cases hG
  | cons g G =>
    cases g with
    | nil => exact absurd rfl (hGne [] (by simp))
    | cons c g =>
      have hcc : c = b.key ++ '=' :: c0 := by
        rw [hc0] at hG
        injection hG
      obtain ⟨u, hu⟩ : ∃ u, (c :: g).flatten = b.key ++ '=' :: u := ⟨c0 ++ g.flatten, by rw [hcc]; simp⟩
      have hpinf : ∀ x ∈ ((c :: g) :: G).map List.flatten, x <:+: b.entry := by
        intro x hx
        rw [← hfl, List.flatten_flatten]
        obtain ⟨l, m, e⟩ := List.append_of_mem hx
        rw [e]
        exact ⟨l.flatten, m.flatten, by simp⟩
      have hmem : ∀ x ∈ ((c :: g) :: G).map List.flatten, ∀ t ∈ tokens x, t ∈ tokens b.entry := by
        intro x hx t htt
        rw [ht]
        obtain ⟨y, hy, rfl⟩ := List.mem_map.1 hx
        exact List.mem_flatten.2 ⟨_, List.mem_map.2 ⟨y, hy, rfl⟩, htt⟩
      refine ⟨⟨b.key, ((c :: g).flatten, rstrip u), G.map fun g => (b.key ++ "= ".toList ++ g.flatten, rstrip (' ' :: g.flatten))⟩,
        ?_, ⟨hb.key, ?_, ?_⟩, rfl, ?_, ?_⟩
      · unfold wrapped Block.lines
        rw [htw]
        simp only [List.map_cons, List.map_map]
        rw [Block.entry_eq, hci]
        rfl
      · have h1 : rstrip ((c :: g).flatten) = b.key ++ '=' :: rstrip u := by rw [hu, rstrip_kv _ _ h.key]
        refine ⟨?_, ?_⟩
        · simp only
          rw [cleanLine_id _ fun hh => h.clasp (hh.trans (hpinf _ (by simp))), hu, strip_kv _ _ h.key]
        · simp only
          rw [← h1]
          exact not_section _ fun x hx => h.colon x (hmem _ (by simp) x hx)
      · intro p hp
        obtain ⟨g', hg', rfl⟩ := List.mem_map.1 hp
        have e : b.key ++ "= ".toList ++ g'.flatten = b.key ++ '=' :: (' ' :: g'.flatten) := by simp
        refine ⟨?_, ?_⟩
        · simp only
          rw [e, cleanLine_id, strip_kv _ _ h.key]
          intro hh
          rw [show b.key ++ '=' :: (' ' :: g'.flatten) = (b.key ++ ['=']) ++ ' ' :: g'.flatten by simp] at hh
          rcases infix_across _ _ _ ' ' (by decide) hh with hh | hh
          · refine h.clasp (hh.trans ?_)
            rw [Block.entry_eq]
            exact ⟨[], b.value, by simp⟩
          · exact h.clasp (hh.trans (hpinf _ (by simp; right; exact ⟨g', hg', rfl⟩)))
        · simp only
          rw [← rstrip_kv _ _ h.key]
          refine not_section _ fun x hx => ?_
          rw [show b.key ++ '=' :: (' ' :: g'.flatten) = (b.key ++ ['=']) ++ ' ' :: g'.flatten by simp,
            tokens_space_mid _ _ _ (by decide)] at hx
          rcases List.mem_append.1 hx with hx | hx
          · have := tokens_prefix (b.key ++ ['=']) [] (by simp) hns
            rw [List.append_nil] at this
            rw [this] at hx
            have hx : x = b.key ++ ['='] := by simpa [tokens, tokens.go] using hx
            rw [hx]
            simp
          · exact h.colon x (hmem _ (by simp; right; exact ⟨g', hg', rfl⟩) x hx)
      · rw [ht, Block.entry_eq]
        simp only [Block.value]
        have e : (G.map fun g => (b.key ++ "= ".toList ++ g.flatten, rstrip (' ' :: g.flatten))).map (fun p => ' ' :: lstrip p.2) =
            (G.map fun g => lstrip (rstrip (' ' :: g.flatten))).map (' ' :: ·) := by simp
        rw [e, show b.key ++ '=' :: (rstrip u ++ _) = (b.key ++ '=' :: rstrip u) ++ _ by rw [List.append_assoc]; rfl, tokens_spaced_list,
          ← rstrip_kv _ _ h.key, tokens_rstrip, ← hu]
        simp only [List.map_cons, List.flatten_cons, List.map_map]
        congr 2
        refine List.map_congr_left fun g' _ => ?_
        simp only [Function.comp]
        rw [tokens_lstrip, tokens_rstrip, tokens_cons_space _ _ (by decide)]
      · simp only [Block.entry]
        have hle := congrArg List.length hfl
        have h2 : (rstrip u).length ≤ u.length := by
          unfold rstrip
          rw [List.length_reverse]
          exact (List.length_dropWhile_le _ _).trans (by simp)
        have h3 := congrArg List.length hu
        have h4 := h.len
        have h5 : ∀ G : List (List Str), (∀ g ∈ G, g ≠ []) → (∀ c ∈ G.flatten, c ≠ []) →
            ((G.map fun g => ' ' :: lstrip (rstrip (' ' :: g.flatten))).flatten).length ≤ 2 * G.flatten.flatten.length := by
          intro G
          induction G with
          | nil => intro _ _; simp
          | cons g G ih =>
            intro hg hc
            have := ih (fun x hx => hg x (by simp [hx])) fun x hx => hc x (by rw [List.flatten_cons]; simp [hx])
            have h6 := length_strip_space g.flatten
            have h7 : 1 ≤ g.flatten.length := by
              cases g with
              | nil => exact absurd rfl (hg [] (by simp))
              | cons x g =>
                have := hc x (by simp)
                cases x with
                | nil => exact absurd rfl this
                | cons y x => simp
            simp only [List.map_cons, List.flatten_cons, List.length_append, List.length_cons, List.flatten_append]
            omega
        have h8 := h5 G (fun x hx => hGne x (by simp [hx])) fun x hx => hsne x (by rw [List.flatten_cons]; simp [hx])
        rw [List.flatten_cons, List.flatten_append, List.length_append, h3] at hle
        simp only [List.length_append, List.length_cons, List.map_map] at hle ⊢
        have e : ((fun p : Str × Str => ' ' :: lstrip p.2) ∘ fun g : List Str => (b.key ++ "= ".toList ++ g.flatten, rstrip (' ' :: g.flatten))) =
          fun g => ' ' :: lstrip (rstrip (' ' :: g.flatten)) := rfl
        rw [e]
        omega

theorem headerItems_blocks (wrap : Nat → Str → Str → List Str) (hwr : WrapOk wrap) (lower : Str → Str) (lines items : List Str)
    (hn : (items.map lower).Nodup) (bs : List Block) (hne : ∀ l ∈ lines, l ≠ [] ∧ NB l) (h : BlocksOk lines bs)
    (hs : ∀ b ∈ bs, b.entry.length ≤ 4096) :
    headerItems wrap lower lines items =
      .ok (items.map fun it => lastValue lower (bs.map Block.entry ++ viewLine (lastView lines)) (lower it)) := by
  have e := splitlines_join lines hne
  have hc := cleanText_blocks wrap hwr 4096 (joinWith '\n' lines) bs (by rw [e]; exact h)
  have h2 : bs.map (fun b => wrapped wrap 4096 b.entry) = (bs.map Block.entry).map (wrapped wrap 4096) := by simp
  rw [e, h2, wrapped_short wrap hwr 4096 _ (by
    intro l hl
    obtain ⟨b, hb, rfl⟩ := List.mem_map.1 hl
    exact ⟨by unfold Block.entry; simp, hs b hb⟩)] at hc
  cases hi : headerItems wrap lower lines items with
  | error e =>
    unfold headerItems at hi
    rw [hc] at hi
    cases hi
  | ok out =>
    obtain ⟨header, h1, rfl⟩ := C12_last_value_partial wrap lower lines items out hn hi
    rw [hc] at h1
    injection h1 with h1
    rw [← h1]

theorem entry_words (lower : Str → Str) (key : Str) (b b' : Block) (hk : ∀ c ∈ b.key, isSpace c = false) (he : '=' ∉ b.key)
    (hc : ∀ x ∈ tokens b.entry, x.getLast? ≠ some ':') (h1 : b'.key = b.key) (h2 : tokens b'.entry = tokens b.entry) :
    (entryValue lower key b'.entry).map tokens = (entryValue lower key b.entry).map tokens := by
  have hs := not_section b.entry hc
  have hs' := not_section b'.entry (by rw [h2]; exact hc)
  have hv : tokens b'.value = tokens b.value := by
    apply tokens_cancel (b.key ++ ['=']) _ _ (by simp)
    · intro c hc
      rcases List.mem_append.1 hc with hc | hc
      · exact hk c hc
      · rw [List.mem_singleton] at hc; subst hc; decide
    · rw [Block.entry_eq, Block.entry_eq, h1] at h2
      simpa using h2
  rw [Block.entry_eq, rstrip_kv _ _ hk] at hs
  rw [Block.entry_eq, h1, rstrip_kv _ _ hk] at hs'
  unfold entryValue
  rw [Block.entry_eq, Block.entry_eq, h1, strip_kv _ _ hk, strip_kv _ _ hk, keyVal_equals _ _ he, keyVal_equals _ _ he, hs, hs']
  split_ifs
  · simp only [Option.map_some, tokens_strip, tokens_rstrip, hv]
  · rfl

theorem lastValue_words (lower : Str → Str) (key : Str) (l l' : List Str)
    (h : l'.map (fun x => (entryValue lower key x).map tokens) = l.map (fun x => (entryValue lower key x).map tokens)) :
    tokens (lastValue lower l' key) = tokens (lastValue lower l key) := by
  have e : ∀ l : List Str, (l.filterMap (entryValue lower key)).map tokens =
      (l.map fun x => (entryValue lower key x).map tokens).filterMap id := by
    intro l
    induction l with
    | nil => rfl
    | cons a l ih =>
      rw [List.filterMap_cons, List.map_cons, List.filterMap_cons]
      cases entryValue lower key a <;> simp [ih]
  have h0 : tokens [] = [] := rfl
  have f : ∀ l : List Str, tokens (lastValue lower l key) = (((l.filterMap (entryValue lower key)).map tokens).getLast?).getD [] := by
    intro l
    unfold lastValue
    rw [List.getLast?_map]
    cases (l.filterMap (entryValue lower key)).getLast? <;> simp [h0]
  rw [f, f, e, e, h]

/-- **C132**, the full claim: reading a cleaned header gives the same words for every key as reading the header itself. -/
def C132_statement : Prop :=
  ∀ (cls : Cls) (lower : Str → Str) (lines items out o1 o2 : List Str), (items.map lower).Nodup →
    cleanHeader (textwrap cls) lines = .ok out → headerItems (textwrap cls) lower lines items = .ok o1 →
    headerItems (textwrap cls) lower out items = .ok o2 → o2.map tokens = o1.map tokens

/-- a long value of hyphenated words -/
def hyphenated : Str := "SCENES=".toList ++ (List.replicate 20 " my-scene".toList).flatten

/-- The claim is false: a word broken at its hyphen becomes two. -/
theorem C132_refuted : ¬ C132_statement := by
  intro h
  have h1 : cleanHeader (textwrap ascii) [hyphenated] =
      .ok ["SCENES=".toList ++ (List.replicate 15 " my-scene".toList).flatten ++ " my-".toList,
        "SCENES= scene".toList ++ (List.replicate 4 " my-scene".toList).flatten] := by decide +kernel
  have h2 := h ascii id [hyphenated] ["SCENES".toList] _ [((List.replicate 20 " my-scene".toList).flatten).tail]
    ["my-scene".toList ++ (List.replicate 14 " my-scene".toList).flatten ++ " my- scene".toList ++
        (List.replicate 4 " my-scene".toList).flatten] (by decide) h1 (by decide +kernel) (by decide +kernel)
  revert h2
  decide +kernel

/-- **C132** for headers where the lines of a key stand together, with entries that can be joined again. Missing: headers with
sections, lines without `=`, and entries that cannot, see `C132_refuted`. -/
theorem C132_partial (cls : Cls) (lower : Str → Str) (lines items : List Str) (bs : List Block)
    (hne : ∀ l ∈ lines, l ≠ [] ∧ NB l) (h : BlocksOk lines bs) (hb : ∀ b ∈ bs, Rejoins cls b)
    (hv : ∀ v ∈ lastView lines, ViewText v) (hn : (items.map lower).Nodup) :
    ∃ out o1 o2, cleanHeader (textwrap cls) lines = .ok out ∧ headerItems (textwrap cls) lower lines items = .ok o1 ∧
      headerItems (textwrap cls) lower out items = .ok o2 ∧ o2.map tokens = o1.map tokens := by
  have hwr := textwrap_ok cls
  have e := splitlines_join lines hne
  have hbe : BlocksOk (splitlines (joinWith '\n' lines)) bs := by rw [e]; exact h
  have hgood := entries_good _ bs hbe
  have hex : ∀ b : Block, ∃ b' : Block, b ∈ bs → wrapped (textwrap cls) 150 b.entry = b'.lines ∧ b'.Ok ∧ b'.key = b.key ∧
      tokens b'.entry = tokens b.entry ∧ b'.entry.length ≤ 4096 := by
    intro b
    by_cases hm : b ∈ bs
    · obtain ⟨b', hb'⟩ := rewrap cls b (h.ok b hm) (hb b hm)
      exact ⟨b', fun _ => hb'⟩
    · exact ⟨b, fun h => absurd h hm⟩
  choose f hf using hex
  have hcl : cleanHeader (textwrap cls) lines = .ok (((bs.map f).map Block.lines).flatten ++ viewLine (lastView lines)) := by
    unfold cleanHeader
    rw [cleanText_blocks _ hwr 150 _ bs hbe, e]
    congr 3
    rw [List.map_map]
    exact List.map_congr_left fun b hm => (hf b hm).1
  have hok : ∀ b ∈ bs.map f, b.Ok := by
    intro b hm
    obtain ⟨a, ha, rfl⟩ := List.mem_map.1 hm
    exact (hf a ha).2.1
  have hkept : ∀ l ∈ ((bs.map f).map Block.lines).flatten, ¬ isDropped l := by
    intro l hl
    obtain ⟨L, hL, hl⟩ := List.mem_flatten.1 hl
    obtain ⟨b, hb', rfl⟩ := List.mem_map.1 hL
    have hbo := hok b hb'
    have : ∃ v, ValLine b.key v l := by
      unfold Block.lines at hl
      rcases List.mem_cons.1 hl with rfl | hl
      · exact ⟨_, hbo.first⟩
      · obtain ⟨p, hp, rfl⟩ := List.mem_map.1 hl
        exact ⟨_, hbo.more p hp⟩
    obtain ⟨v, hvl⟩ := this
    obtain ⟨h1, h2, h3⟩ := not_kept hbo.key hvl
    rintro ⟨-, h4⟩
    tauto
  have hlines : ∀ l ∈ ((bs.map f).map Block.lines).flatten ++ viewLine (lastView lines), l ≠ [] ∧ NB l := by
    intro l hl
    rcases List.mem_append.1 hl with hl | hl
    · obtain ⟨L, hL, hl⟩ := List.mem_flatten.1 hl
      rw [List.map_map] at hL
      obtain ⟨b, hm, rfl⟩ := List.mem_map.1 hL
      simp only [Function.comp] at hl
      rw [← (hf b hm).1] at hl
      exact wrapped_good _ hwr 150 _ (hgood b hm) l hl
    · cases hx : lastView lines with
      | none => rw [hx] at hl; cases hl
      | some v =>
        rw [hx] at hl
        rw [show l = "VIEW=".toList ++ v from List.mem_singleton.1 hl]
        exact ⟨by simp, NB.append (by intro c hc; revert c; decide) (hv v hx).nb⟩
  have hvv : (((bs.map f).map Block.lines).flatten).filterMap viewValue = [] := by
    rw [List.filterMap_eq_nil_iff]
    intro l hl
    have := hkept l hl
    unfold viewValue
    rw [if_neg fun hh => this ⟨hh.1, Or.inr (Or.inr hh.2)⟩]
  have hself : (((bs.map f).map Block.lines).flatten).filter (fun l => !decide (isDropped l)) = ((bs.map f).map Block.lines).flatten :=
    List.filter_eq_self.2 fun l hl => by simp [hkept l hl]
  have hlast : lastView (((bs.map f).map Block.lines).flatten ++ viewLine (lastView lines)) = lastView lines ∧
      (((bs.map f).map Block.lines).flatten ++ viewLine (lastView lines)).filter (fun l => !decide (isDropped l)) =
        ((bs.map f).map Block.lines).flatten := by
    cases hx : lastView lines with
    | none =>
      simp only [viewLine, List.append_nil]
      exact ⟨by unfold lastView; rw [hvv]; rfl, hself⟩
    | some v =>
      have hvt := hv v hx
      constructor
      · unfold lastView
        rw [List.filterMap_append, hvv]
        simp only [viewLine, List.filterMap_cons, view_value hvt, List.filterMap_nil, List.nil_append, List.getLast?_singleton]
      · rw [List.filter_append, hself]
        simp only [viewLine, List.filter_cons, view_dropped hvt, decide_true, Bool.not_true, Bool.false_eq_true, if_false,
          List.filter_nil, List.append_nil]
  have hbo : BlocksOk (((bs.map f).map Block.lines).flatten ++ viewLine (lastView lines)) (bs.map f) := by
    refine ⟨hok, ?_, hlast.2⟩
    have : (bs.map f).map Block.key = bs.map Block.key := by
      rw [List.map_map]
      exact List.map_congr_left fun b hm => (hf b hm).2.2.1
    rw [this]
    exact h.keys
  refine ⟨_, _, _, hcl, headerItems_blocks _ hwr lower lines items hn bs hne h fun b hm => (hb b hm).len.trans (by omega),
    headerItems_blocks _ hwr lower _ items hn (bs.map f) hlines hbo ?_, ?_⟩
  · intro b hm
    obtain ⟨a, ha, rfl⟩ := List.mem_map.1 hm
    exact (hf a ha).2.2.2.2
  · rw [hlast.1]
    simp only [List.map_map]
    refine List.map_congr_left fun it _ => ?_
    simp only [Function.comp]
    apply lastValue_words
    rw [List.map_append, List.map_append]
    congr 1
    simp only [List.map_map]
    refine List.map_congr_left fun b hm => ?_
    exact entry_words lower _ b (f b) (hb b hm).key (h.ok b hm).key.plain (hb b hm).colon (hf b hm).2.2.1 (hf b hm).2.2.2.1

/-! Headers the hypotheses hold for -/

/-- two lines of a key, a view, another key -/
def flatLines : List Str := ["EXPOSURE=2.5".toList, "EXPOSURE= 3.0".toList, "VIEW= -vta -vh 180".toList, "SOFTWARE= RADIANCE 5.3".toList]

def flatBlocks : List Block :=
  [⟨"EXPOSURE".toList, ("EXPOSURE=2.5".toList, "2.5".toList), [("EXPOSURE= 3.0".toList, " 3.0".toList)]⟩,
    ⟨"SOFTWARE".toList, ("SOFTWARE= RADIANCE 5.3".toList, " RADIANCE 5.3".toList), []⟩]

theorem flat_ok : BlocksOk flatLines flatBlocks where
  ok := by
    intro b hb
    simp only [flatBlocks, List.mem_cons, List.not_mem_nil, or_false] at hb
    rcases hb with rfl | rfl
    · exact ⟨⟨by decide, by decide⟩, ⟨by decide +kernel, by decide +kernel⟩, by
        intro p hp
        rw [List.mem_singleton] at hp
        subst hp
        exact ⟨by decide +kernel, by decide +kernel⟩⟩
    · exact ⟨⟨by decide, by decide⟩, ⟨by decide +kernel, by decide +kernel⟩, by simp⟩
  keys := by decide
  lines := by decide +kernel

example : cleanHeader noWrap flatLines = .ok ["EXPOSURE=2.5 3.0".toList, "SOFTWARE= RADIANCE 5.3".toList, "VIEW= -vta -vh 180".toList] := by
  decide +kernel

/-- a value of 40 words, broken into two lines -/
def wordy : Str := "NOTES=".toList ++ (List.replicate 40 " scene".toList).flatten

def wordyBlock : Block := ⟨"NOTES".toList, (wordy, (List.replicate 40 " scene".toList).flatten), []⟩

theorem wordy_ok : BlocksOk [wordy] [wordyBlock] where
  ok := by
    intro b hb
    rw [List.mem_singleton] at hb
    subst hb
    exact ⟨⟨by decide, by decide⟩, ⟨by decide +kernel, by decide +kernel⟩, by simp [wordyBlock]⟩
  keys := by decide
  lines := by decide +kernel

theorem wordy_rejoins : Rejoins ascii wordyBlock where
  key := by decide
  hyph := by decide +kernel
  short := by decide +kernel
  colon := by decide +kernel
  clasp := by
    rintro ⟨a, b, hab⟩
    have : '_' ∈ wordyBlock.entry := by rw [← hab]; simp
    revert this
    decide +kernel
  len := by decide +kernel

example : (cleanHeader (textwrap ascii) [wordy]).map List.length = .ok 2 := by decide +kernel

example : cleanHeader noWrap flatLines = .ok (flatBlocks.map Block.entry ++ viewLine (lastView flatLines)) :=
  C133_partial noWrap noWrap_ok flatLines flatBlocks (by unfold NB; decide +kernel) flat_ok (by decide +kernel)

example : ∃ out o1 o2, cleanHeader (textwrap ascii) [wordy] = .ok out ∧
    headerItems (textwrap ascii) id [wordy] ["NOTES".toList] = .ok o1 ∧
    headerItems (textwrap ascii) id out ["NOTES".toList] = .ok o2 ∧ o2.map tokens = o1.map tokens :=
  C132_partial ascii id [wordy] ["NOTES".toList] [wordyBlock] (by unfold NB; decide +kernel) wordy_ok
    (by intro b hb; rw [List.mem_singleton] at hb; subst hb; exact wordy_rejoins)
    (by
      have : lastView [wordy] = none := by decide +kernel
      rw [this]
      simp)
    (by decide)

end Verif.Header
