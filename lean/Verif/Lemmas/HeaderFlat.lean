import Verif.Lemmas.HeaderTree
/-! # Headers of `key=value` lines where the lines of a key stand together -/
namespace Verif.Header
open Verif.Py Forest

/-- a list of texts -/
def ofList : List Str → Forest
  | [] => .nil
  | s :: l => .str s (ofList l)

theorem ofList_snoc (l : List Str) (s : Str) : (ofList l).pushStr s = ofList (l ++ [s]) := by
  induction l with
  | nil => rfl
  | cons a l ih => simp [ofList, pushStr, ih]

theorem extendLast_ofList (l : List Str) (s t : Str) : extendLast t (ofList (l ++ [s])) = .ok (ofList (l ++ [s ++ t])) := by
  induction l with
  | nil => rfl
  | cons a l ih =>
    have : ∃ b r, ofList (l ++ [s]) = .str b r := by
      cases l <;> exact ⟨_, _, rfl⟩
    obtain ⟨b, r, hb⟩ := this
    simp only [List.cons_append, ofList]
    rw [hb] at ih ⊢
    simp only [extendLast]
    rw [ih]
    rfl

theorem cleanUp_ofList (l : List Str) : cleanUp (-1) 0 (ofList l) = l := by
  induction l with
  | nil => rfl
  | cons a l ih => simp [ofList, cleanUp, ih]

/-- a key as it should be -/
structure KeyOk (k : Str) : Prop where
  plain : '=' ∉ k
  kept : k ∉ ["pvalue".toList, "FORMAT".toList, "VIEW".toList, "...".toList]

/-- `l` is a line with key `k` and value `v` -/
structure ValLine (k v l : Str) : Prop where
  clean : cleanLine l = k ++ '=' :: v
  entry : isSectionText (k ++ '=' :: v) = false

/-- consecutive lines of one key: the first line with its value, then the others -/
structure Block where
  key : Str
  first : Str × Str
  more : List (Str × Str)

/-- its lines -/
def Block.lines (b : Block) : List Str := b.first.1 :: b.more.map Prod.fst

/-- the entry they are joined to -/
def Block.entry (b : Block) : Str := b.key ++ '=' :: (b.first.2 ++ (b.more.map fun p => ' ' :: lstrip p.2).flatten)

structure Block.Ok (b : Block) : Prop where
  key : KeyOk b.key
  first : ValLine b.key b.first.2 b.first.1
  more : ∀ p ∈ b.more, ValLine b.key p.2 p.1

theorem norm_kv (k v : Str) (hk : '=' ∉ k) : norm (k ++ '=' :: v) = k ++ '=' :: v := by
  unfold norm sepOf
  rw [keyVal_equals k v hk, if_pos (by simp)]

theorem not_kept {k v l : Str} (hk : KeyOk k) (h : ValLine k v l) :
    ¬ isSectionText (cleanLine l) = true ∧
      ¬ ((keyVal (cleanLine l)).1 = "pvalue".toList ∨ (keyVal (cleanLine l)).1 = "FORMAT".toList) ∧
      ¬ (keyVal (cleanLine l)).1 = "VIEW".toList := by
  rw [h.clean, h.entry, keyVal_equals k v hk.plain]
  have := hk.kept
  simp only [List.mem_cons, List.not_mem_nil, or_false, not_or] at this
  exact ⟨by simp, by tauto, by tauto⟩

theorem step_first {k v l : Str} (hk : KeyOk k) (h : ValLine k v l) (E : List Str) (view : Option Str) (lk : Str)
    (hlk : E = [] ∨ lk ≠ k) (hE : ∀ e ∈ E, ¬ (k ++ ['=']) <+: e) :
    step ⟨ofList E, view, E.reverse, [], lk⟩ l =
      .ok ⟨ofList (E ++ [k ++ '=' :: v]), view, (E ++ [k ++ '=' :: v]).reverse, [], k⟩ := by
  obtain ⟨h1, h2, h3⟩ := not_kept hk h
  unfold step
  rw [if_neg h1, if_neg h2, if_neg h3, h.clean, keyVal_equals k v hk.plain]
  have hd : k ≠ "...".toList := by
    have := hk.kept
    simp only [List.mem_cons, List.not_mem_nil, or_false, not_or] at this
    tauto
  unfold keepStep
  rw [keyVal_equals k v hk.plain, if_neg, if_neg, norm_kv k v hk.plain]
  · simp only [newStep, csLine, List.getLast?_nil, List.length_nil, modAt]
    rw [ofList_snoc]
    simp only [List.reverse_append, List.reverse_cons, List.reverse_nil, List.nil_append, List.singleton_append]
    rfl
  · simp only [List.mem_reverse]
    intro hm
    exact hE _ hm ⟨v, by simp⟩
  · rintro (h0 | ⟨h0, h4⟩)
    · exact hd h0
    · rcases hlk with rfl | hlk
      · exact h4 rfl
      · exact hlk h0.symm

theorem step_more {k v l : Str} (hk : KeyOk k) (h : ValLine k v l) (E : List Str) (e : Str) (view : Option Str) :
    step ⟨ofList (E ++ [e]), view, (E ++ [e]).reverse, [], k⟩ l =
      .ok ⟨ofList (E ++ [e ++ ' ' :: lstrip v]), view, (E ++ [e ++ ' ' :: lstrip v]).reverse, [], k⟩ := by
  obtain ⟨h1, h2, h3⟩ := not_kept hk h
  unfold step
  rw [if_neg h1, if_neg h2, if_neg h3, h.clean, keyVal_equals k v hk.plain]
  unfold keepStep
  rw [keyVal_equals k v hk.plain, if_pos]
  · simp only [continueStep, List.length_nil, modAt, extendLast_ofList, List.reverse_append, List.reverse_cons,
      List.reverse_nil, List.nil_append, List.singleton_append]
    rfl
  · right
    refine ⟨rfl, ?_⟩
    simp only [List.length_nil, getAt, ne_eq, Option.some.injEq]
    cases E <;> simp [ofList]

theorem run_cons (st : St) (l : Str) (ls : List Str) (s : St) (h : step st l = .ok s) : run st (l :: ls) = run s ls := by
  simp only [run]
  rw [h]
  rfl

theorem run_append_ok (st : St) (a b : List Str) (s : St) (h : run st a = .ok s) : run st (a ++ b) = run s b := by
  induction a generalizing st with
  | nil => injection h with h; rw [h]; rfl
  | cons l ls ih =>
    simp only [run] at h
    cases hx : step st l with
    | error e => rw [hx] at h; cases h
    | ok t =>
      rw [hx] at h
      rw [List.cons_append, run_cons _ _ _ _ hx]
      exact ih t h

theorem run_more {k : Str} (hk : KeyOk k) (more : List (Str × Str)) (hm : ∀ p ∈ more, ValLine k p.2 p.1) (E : List Str)
    (e : Str) (view : Option Str) :
    run ⟨ofList (E ++ [e]), view, (E ++ [e]).reverse, [], k⟩ (more.map Prod.fst) =
      .ok ⟨ofList (E ++ [e ++ (more.map fun p => ' ' :: lstrip p.2).flatten]), view,
        (E ++ [e ++ (more.map fun p => ' ' :: lstrip p.2).flatten]).reverse, [], k⟩ := by
  induction more generalizing e with
  | nil => simp [run]
  | cons p ps ih =>
    rw [List.map_cons, run_cons _ _ _ _ (step_more hk (hm p (by simp)) E e view),
      ih (fun q hq => hm q (by simp [hq]))]
    simp

theorem run_block (b : Block) (hb : b.Ok) (E : List Str) (view : Option Str) (lk : Str) (hlk : E = [] ∨ lk ≠ b.key)
    (hE : ∀ e ∈ E, ¬ (b.key ++ ['=']) <+: e) :
    run ⟨ofList E, view, E.reverse, [], lk⟩ b.lines =
      .ok ⟨ofList (E ++ [b.entry]), view, (E ++ [b.entry]).reverse, [], b.key⟩ := by
  unfold Block.lines
  rw [run_cons _ _ _ _ (step_first hb.key hb.first E view lk hlk hE), run_more hb.key b.more hb.more]
  simp [Block.entry]

theorem prefix_key {k k' v : Str} (h : '=' ∉ k) (h' : '=' ∉ k') (hp : (k ++ ['=']) <+: k' ++ '=' :: v) : k = k' := by
  obtain ⟨t, ht⟩ := hp
  have h1 := keyVal_equals k t h
  have h2 := keyVal_equals k' v h'
  rw [List.append_assoc] at ht
  rw [show k ++ '=' :: t = k' ++ '=' :: v from ht, h2] at h1
  exact (Prod.mk.inj h1).1.symm

/-- Reading blocks of lines with different keys gives one entry for each. -/
theorem run_blocks (bs : List Block) (hb : ∀ b ∈ bs, b.Ok) (hn : (bs.map Block.key).Nodup) (E : List Str) (view : Option Str)
    (lk : Str) (hlk : E = [] ∨ lk ∉ bs.map Block.key) (hE : ∀ e ∈ E, ∀ b ∈ bs, ¬ (b.key ++ ['=']) <+: e) :
    ∃ lk', run ⟨ofList E, view, E.reverse, [], lk⟩ (bs.map Block.lines).flatten =
      .ok ⟨ofList (E ++ bs.map Block.entry), view, (E ++ bs.map Block.entry).reverse, [], lk'⟩ := by
  induction bs generalizing E lk with
  | nil => exact ⟨lk, by simp [run]⟩
  | cons b bs ih =>
    have hbb := hb b (by simp)
    simp only [List.map_cons, List.nodup_cons] at hn
    obtain ⟨lk', h⟩ := ih (fun x hx => hb x (by simp [hx])) hn.2 (E ++ [b.entry]) b.key (Or.inr hn.1) (by
      intro e he c hc hp
      rcases List.mem_append.1 he with he | he
      · exact hE e he c (by simp [hc]) hp
      · rw [List.mem_singleton] at he
        rw [he] at hp
        unfold Block.entry at hp
        have := prefix_key (hb c (by simp [hc])).key.plain hbb.key.plain hp
        exact hn.1 (by rw [← this]; exact List.mem_map_of_mem hc))
    refine ⟨lk', ?_⟩
    simp only [List.map_cons, List.flatten_cons]
    rw [run_append_ok _ _ _ _ (run_block b hbb E view lk (by
      rcases hlk with h | h
      · exact Or.inl h
      · exact Or.inr fun h0 => h (by simp [h0])) fun e he => hE e he b (by simp)), h]
    simp

end Verif.Header
