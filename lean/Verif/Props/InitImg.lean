import Verif.Model.InitImg
import Verif.Props.ViewHeader
import Verif.Props.Solid2ang

/-! Blank images and the directions of their pixels: C141 to C148. -/

namespace Verif.Init
open Verif.Py Verif.Geo Verif.Map Real

/-! ### C141 names of projections -/

theorem lower_iff (c x X : Char) (h : X.toNat + 32 = x.toNat) (h1 : 65 ≤ X.toNat) (h2 : X.toNat ≤ 90) :
    c.toLower = x ↔ c = x ∨ c = X := by
  have inj : ∀ a b : Char, a = b ↔ a.toNat = b.toNat := by
    intro a b
    rw [Char.ext_iff, ← UInt32.toNat_inj]; rfl
  rw [inj, inj, inj]
  unfold Char.toLower
  split_ifs with hc
  · simp [UInt32.le_iff_toNat_le] at hc
    show (c.val + ('a'.val - 'A'.val)).toNat = x.toNat ↔ _
    have hv : c.val.toNat = c.toNat := rfl
    rw [UInt32.toNat_add, show ('a'.val - 'A'.val).toNat = 32 from rfl, hv]
    omega
  · simp [UInt32.le_iff_toNat_le] at hc
    omega

theorem letter_cons (c : Char) (r : Str) (h : ¬(c.toLower = 'v' ∧ (r.head?.map Char.toLower) = some 't')) :
    letter (c :: r) = .ok c.toLower := by
  have h2 : ¬((Pool.lower (c :: r)).take 2 = "vt".toList) := by
    intro e
    apply h
    cases r with
    | nil => simp [Pool.lower] at e
    | cons d r => simpa [Pool.lower] using e
  unfold letter
  rw [if_neg h2]
  rfl

theorem letter_vt (v t : Char) (r : Str) (hv : v.toLower = 'v') (ht : t.toLower = 't') :
    letter (v :: t :: r) = .ok ((t :: r).getLast (by simp)).toLower := by
  have h2 : (Pool.lower (v :: t :: r)).take 2 = "vt".toList := by simp [Pool.lower, hv, ht]
  unfold letter
  rw [if_pos h2]
  have e : (Pool.lower (v :: t :: r)).getLast? = some ((t :: r).getLast (by simp)).toLower := by
    unfold Pool.lower
    rw [List.getLast?_map, List.getLast?_cons_cons, List.getLast?_eq_getLast_of_ne_nil (by simp)]
    rfl
  rw [e]

/-- the names the documentation of `init_img` lists -/
inductive Named : Str → Proj → Prop
  | a (c : Char) (r : Str) : c = 'a' ∨ c = 'A' → Named (c :: r) .vta
  | vta : Named "vta".toList .vta
  | fish (r : Str) : Named ("fish".toList ++ r) .vta
  | e (c : Char) (r : Str) : c = 'e' ∨ c = 'E' → Named (c :: r) .vte
  | vte : Named "vte".toList .vte
  | u (c : Char) (r : Str) : c = 'u' ∨ c = 'U' → Named (c :: r) .vuv
  | square : Named "square".toList .vuv

theorem process_cons (c : Char) (r : Str) (h : c ≠ 'v' ∧ c ≠ 'V') :
    process (c :: r) = .ok (if c = 'a' ∨ c = 'A' ∨ c = 'f' ∨ c = 'F' then .vta else if c = 'e' ∨ c = 'E' then .vte else .vuv) := by
  have hv : c.toLower ≠ 'v' := by
    rw [ne_eq, lower_iff c 'v' 'V' (by decide) (by decide) (by decide)]
    tauto
  unfold process
  rw [letter_cons c r (fun e => hv e.1)]
  show Except.ok _ = _
  simp only [lower_iff c 'a' 'A' (by decide) (by decide) (by decide), lower_iff c 'f' 'F' (by decide) (by decide) (by decide),
    lower_iff c 'e' 'E' (by decide) (by decide) (by decide), or_assoc]

/-- **C141** every documented name selects its projection -/
theorem C141_documented {a : Str} {p : Proj} (h : Named a p) : process a = .ok p := by
  cases h with
  | a c r hc =>
    rw [process_cons c r (by rcases hc with h | h <;> subst h <;> decide)]
    rcases hc with h | h <;> subst h <;> simp
  | vta => decide
  | fish r =>
    show process ('f' :: _) = _
    rw [process_cons _ _ (by decide)]; simp
  | e c r hc =>
    rw [process_cons c r (by rcases hc with h | h <;> subst h <;> decide)]
    rcases hc with h | h <;> subst h <;> simp
  | vte => decide
  | u c r hc =>
    rw [process_cons c r (by rcases hc with h | h <;> subst h <;> decide)]
    rcases hc with h | h <;> subst h <;> simp
  | square => decide

/-- **C141** only the empty name is refused, with an `IndexError` -/
theorem C141_refused (a : Str) : (a = [] → process a = .error .IndexError) ∧ (a ≠ [] → ∃ p, process a = .ok p) := by
  refine ⟨fun h => by subst h; rfl, fun h => ?_⟩
  have : ∃ c, letter a = .ok c := by
    cases a with
    | nil => exact absurd rfl h
    | cons c r =>
      by_cases hv : c.toLower = 'v' ∧ (r.head?.map Char.toLower) = some 't'
      · cases r with
        | nil => simp at hv
        | cons t r => exact ⟨_, letter_vt c t r hv.1 (by simpa using hv.2)⟩
      · exact ⟨_, letter_cons c r hv⟩
  obtain ⟨c, hc⟩ := this
  exact ⟨_, by unfold process; rw [hc]; rfl⟩

/-- **C141** a name that begins with `vt` is decided by its last letter alone, other names by their first letter alone; names
beginning with a single `v` mean the square projection. Letter case never matters. -/
theorem C141_letter (c : Char) (r : Str) :
    (c ≠ 'v' ∧ c ≠ 'V' → process (c :: r)
      = .ok (if c = 'a' ∨ c = 'A' ∨ c = 'f' ∨ c = 'F' then .vta else if c = 'e' ∨ c = 'E' then .vte else .vuv)) ∧
    (c = 'v' ∨ c = 'V' → (∀ t s, r = t :: s → t ≠ 't' ∧ t ≠ 'T') → process (c :: r) = .ok .vuv) ∧
    (c = 'v' ∨ c = 'V' → ∀ t s l, r = t :: (s ++ [l]) → t = 't' ∨ t = 'T' → process (c :: r)
      = .ok (if l = 'a' ∨ l = 'A' ∨ l = 'f' ∨ l = 'F' then .vta else if l = 'e' ∨ l = 'E' then .vte else .vuv)) := by
  refine ⟨process_cons c r, fun hc hr => ?_, fun hc t s l hr ht => ?_⟩
  · have h2 : ¬(c.toLower = 'v' ∧ (r.head?.map Char.toLower) = some 't') := by
      rintro ⟨-, h⟩
      cases r with
      | nil => simp at h
      | cons t s =>
        have := hr t s rfl
        simp only [List.head?_cons, Option.map_some, Option.some.injEq] at h
        rw [lower_iff t 't' 'T' (by decide) (by decide) (by decide)] at h
        tauto
    unfold process
    rw [letter_cons c r h2]
    rcases hc with h | h <;> subst h <;> decide
  · subst hr
    unfold process
    rw [letter_vt c t _ ((lower_iff c 'v' 'V' (by decide) (by decide) (by decide)).mpr hc)
      ((lower_iff t 't' 'T' (by decide) (by decide) (by decide)).mpr ht)]
    have e : (t :: (s ++ [l])).getLast (by simp) = l := by simp
    rw [e]
    show Except.ok _ = _
    simp only [lower_iff l 'a' 'A' (by decide) (by decide) (by decide), lower_iff l 'f' 'F' (by decide) (by decide) (by decide),
      lower_iff l 'e' 'E' (by decide) (by decide) (by decide), or_assoc]

/-- **C141** the names passed on to the second reading mean the same there -/
theorem C141_stable (p : Proj) : process p.text = .ok p ∧ (p ≠ .vte → processBase p.text = .ok p) := by
  cases p <;> decide

/-- `equiangular` selects the equisolid projection -/
example : process "equiangular".toList = .ok .vte := by decide
example : process "VTE".toList = .ok .vte ∧ process "vt".toList = .ok .vuv ∧ processBase "Equisolid".toList = .ok .vuv := by
  decide

/-! ### cells of an array -/

theorem mem_cells {n m i j : ℕ} : (i, j) ∈ cells n m ↔ i < n ∧ j < m := by
  unfold cells
  simp only [List.mem_map, List.mem_range, Prod.mk.injEq]
  constructor
  · rintro ⟨k, hk, rfl, rfl⟩
    have hm : 0 < m := by rcases Nat.eq_zero_or_pos m with h | h
                          · subst h; simp at hk
                          · exact h
    exact ⟨(Nat.div_lt_iff_lt_mul hm).mpr hk, Nat.mod_lt _ hm⟩
  · rintro ⟨hi, hj⟩
    refine ⟨i * m + j, ?_, ?_, ?_⟩
    · calc i * m + j < i * m + m := by omega
        _ = (i + 1) * m := by ring
        _ ≤ n * m := Nat.mul_le_mul_right _ hi
    · rw [Nat.mul_comm, Nat.mul_add_div (by omega), Nat.div_eq_of_lt hj]; simp
    · rw [Nat.mul_comm, Nat.mul_add_mod, Nat.mod_eq_of_lt hj]

/-- row-major order -/
def Before (a b : ℕ × ℕ) : Prop := a.1 < b.1 ∨ (a.1 = b.1 ∧ a.2 < b.2)

theorem cells_sorted (n m : ℕ) : (cells n m).Pairwise Before := by
  unfold cells
  rw [List.pairwise_map]
  refine List.pairwise_lt_range.imp ?_
  intro a b hab
  unfold Before
  simp only
  rcases Nat.lt_or_ge (a / m) (b / m) with h | h
  · exact Or.inl h
  · have h1 : a / m = b / m := le_antisymm (Nat.div_le_div_right hab.le) h
    right
    refine ⟨h1, ?_⟩
    have e1 := Nat.div_add_mod a m
    have e2 := Nat.div_add_mod b m
    rw [h1] at e1
    omega

theorem cells_length (n m : ℕ) : (cells n m).length = n * m := by unfold cells; simp

theorem cells_get {n m : ℕ} {i j : ℕ} (hi : i < n) (hj : j < m) : (cells n m)[i * m + j]? = some (i, j) := by
  have hk : i * m + j < n * m := by
    calc i * m + j < i * m + m := by omega
      _ = (i + 1) * m := by ring
      _ ≤ n * m := Nat.mul_le_mul_right _ hi
  unfold cells
  rw [List.getElem?_map, List.getElem?_range hk]
  simp only [Option.map_some]
  congr 2
  · rw [Nat.mul_comm, Nat.mul_add_div (by omega), Nat.div_eq_of_lt hj]; simp
  · rw [Nat.mul_comm, Nat.mul_add_mod, Nat.mod_eq_of_lt hj]

/-! ### C144 the index for colour images -/

theorem zip_append' {α β : Type} {a b : List α} {c d : List β} (h : a.length = c.length) :
    (a ++ b).zip (c ++ d) = a.zip c ++ b.zip d := List.zip_append h

theorem zip_replicate {α β : Type} (l : List α) (b : β) : l.zip (List.replicate l.length b) = l.map fun x => (x, b) := by
  induction l with
  | nil => rfl
  | cons x l ih => simp [List.replicate_succ, ih]

theorem chan_eq (f : ℕ) (l : List (ℕ × ℕ)) :
    (tile (List.range f) l.length).zip ((repeat_ (l.map Prod.fst) f).zip (repeat_ (l.map Prod.snd) f))
      = l.flatMap fun p => (List.range f).map fun c => (c, p.1, p.2) := by
  induction l with
  | nil => rfl
  | cons p l ih =>
    have e1 : tile (List.range f) (p :: l).length = List.range f ++ tile (List.range f) l.length := by
      unfold tile; simp [List.replicate_succ]
    have e2 : repeat_ ((p :: l).map Prod.fst) f = List.replicate f p.1 ++ repeat_ (l.map Prod.fst) f := by
      unfold repeat_; simp
    have e3 : repeat_ ((p :: l).map Prod.snd) f = List.replicate f p.2 ++ repeat_ (l.map Prod.snd) f := by
      unfold repeat_; simp
    rw [e1, e2, e3, zip_append' (by simp), zip_append' (by simp), ih, List.flatMap_cons]
    congr 1
    rw [List.zip_replicate', ]
    have := zip_replicate (List.range f) (p.1, p.2)
    rw [List.length_range] at this
    exact this

theorem putChan_at {α : Type} (l : List (ℕ × ℕ × ℕ)) (vals : List α) (im : ℕ → ℕ → ℕ → α) (hn : l.Nodup)
    (hl : vals.length = l.length) (c i j : ℕ) :
    ((c, i, j) ∉ l → putChan im l vals c i j = im c i j) ∧
    (∀ k : ℕ, l[k]? = some (c, i, j) → some (putChan im l vals c i j) = vals[k]?) := by
  induction l generalizing vals im with
  | nil => exact ⟨fun _ => rfl, fun k hk => by simp at hk⟩
  | cons e l ih =>
    cases vals with
    | nil => simp at hl
    | cons v vals =>
      have hl' : vals.length = l.length := by simpa using hl
      rw [List.nodup_cons] at hn
      have step : putChan im (e :: l) (v :: vals) = putChan (fun c i j => if (c, i, j) = e then v else im c i j) l vals := rfl
      obtain ⟨h1, h2⟩ := ih vals (fun c i j => if (c, i, j) = e then v else im c i j) hn.2 hl'
      rw [step]
      constructor
      · intro hm
        rw [List.mem_cons, not_or] at hm
        rw [h1 hm.2, if_neg hm.1]
      · intro k hk
        cases k with
        | zero =>
          have he : e = (c, i, j) := by simpa using hk
          rw [h1 (he ▸ hn.1), if_pos he.symm]
          simp
        | succ k =>
          rw [h2 k (by simpa using hk)]
          simp

theorem flat_get {α : Type} (f : ℕ) (l : List (ℕ × ℕ)) (g : ℕ × ℕ → ℕ → α) (k c : ℕ) (hk : k < l.length) (hc : c < f) :
    (l.flatMap fun p => (List.range f).map (g p))[k * f + c]? = some (g l[k] c) := by
  induction l generalizing k with
  | nil => simp at hk
  | cons p l ih =>
    rw [List.flatMap_cons]
    cases k with
    | zero =>
      rw [List.getElem?_append_left (by simpa using hc)]
      simp [hc]
    | succ k =>
      rw [List.getElem?_append_right (by simp; nlinarith)]
      have : (k + 1) * f + c - ((List.range f).map (g p)).length = k * f + c := by simp; rw [Nat.succ_mul]; omega
      rw [this, ih k (by simpa using hk)]
      simp

theorem flat_length {α : Type} (f : ℕ) (l : List (ℕ × ℕ)) (g : ℕ × ℕ → ℕ → α) :
    (l.flatMap fun p => (List.range f).map (g p)).length = l.length * f := by
  induction l with
  | nil => simp
  | cons p l ih => rw [List.flatMap_cons, List.length_append, ih]; simp; ring

theorem chan_nodup (f : ℕ) (l : List (ℕ × ℕ)) (h : l.Nodup) :
    (l.flatMap fun p => (List.range f).map fun c => (c, p.1, p.2)).Nodup := by
  rw [List.nodup_flatMap]
  refine ⟨fun p _ => (List.nodup_range).map fun a b e => (Prod.mk.inj e).1, ?_⟩
  refine h.imp ?_
  intro p q hpq
  rw [Function.onFun, List.disjoint_left]
  intro x hx hy
  simp only [List.mem_map, List.mem_range] at hx hy
  obtain ⟨c, _, rfl⟩ := hx
  obtain ⟨c', _, e⟩ := hy
  apply hpq
  have := (Prod.mk.inj e).2
  exact Prod.ext (Prod.mk.inj this).1.symm (Prod.mk.inj this).2.symm

/-! ### C143 masks -/

open Classical in
theorem mem_idx (m : View) (v : Img V3) (i j : ℕ) :
    (i, j) ∈ inViewIdx m v ↔ i < v.n ∧ j < v.m ∧ m.inView 0 (v.at_ i j) := by
  unfold inViewIdx
  rw [List.mem_filter, mem_cells]
  simp [and_assoc]

theorem idx_sorted (m : View) (v : Img V3) : (inViewIdx m v).Pairwise Before := (cells_sorted _ _).filter _

theorem bits_length (m : View) (v : Img V3) : (inViewBits m v).length = v.n * v.m := by
  unfold inViewBits; rw [List.length_map, cells_length]

open Classical in
theorem bits_get (m : View) (v : Img V3) {i j : ℕ} (hi : i < v.n) (hj : j < v.m) :
    (inViewBits m v)[i * v.m + j]? = some (decide ((i, j) ∈ inViewIdx m v)) := by
  unfold inViewBits
  rw [List.getElem?_map, cells_get hi hj]
  simp [mem_idx, hi, hj]

theorem before_nodup {l : List (ℕ × ℕ)} (h : l.Pairwise Before) : l.Nodup := by
  refine h.imp ?_
  rintro a b hab rfl
  rcases hab with h | h
  · omega
  · omega

/-- what a mask says: the pixels listed in row-major order, or one bit per pixel in row-major order -/
structure MaskIs (n m : ℕ) (P : ℕ → ℕ → Prop) (l : List (ℕ × ℕ)) (b : List Bool) : Prop where
  order : l.Pairwise Before
  mem : ∀ i j, (i, j) ∈ l ↔ i < n ∧ j < m ∧ P i j
  len : b.length = n * m
  bit : ∀ i j, i < n → j < m → (b[i * m + j]? = some true ↔ P i j)

theorem maskIs_inView (m : View) (v : Img V3) :
    MaskIs v.n v.m (fun i j => m.inView 0 (v.at_ i j)) (inViewIdx m v) (inViewBits m v) := by
  classical
  refine ⟨idx_sorted m v, mem_idx m v, bits_length m v, ?_⟩
  intro i j hi hj
  rw [bits_get m v hi hj]
  simp [mem_idx, hi, hj]

theorem maskIs_two (m : View) (k : Kind) (res : ℕ) (h2 : m.two = true) :
    ∃ l b, angMask m (rays k m res) res true = .idx l ∧ angMask m (rays k m res) res false = .bits b ∧
      MaskIs (2 * res) res (fun i j => if i < res then m.inView 0 ((rays k m res).at_ i j) else m.ivm.inView 0 ((rays k m res).at_ i j)) l b := by
  classical
  unfold angMask
  simp only [h2, if_true, Bool.false_eq_true, if_false]
  refine ⟨_, _, rfl, rfl, ?_⟩
  set v := rays k m res with hv
  have hn : v.n = res + res := by rw [hv]; unfold rays; rw [if_pos h2]; rfl
  have hm : v.m = res := by rw [hv]; unfold rays; rw [if_pos h2]; rfl
  obtain ⟨a1, a2, a3, a4⟩ := maskIs_inView m (rowsOf v 0 res)
  obtain ⟨b1, b2, b3, b4⟩ := maskIs_inView m.ivm (rowsOf v res v.n)
  have en1 : (rowsOf v 0 res).n = res := by unfold rowsOf; simp [hn]
  have en2 : (rowsOf v res v.n).n = res := by unfold rowsOf; simp [hn]
  have em1 : (rowsOf v 0 res).m = res := by unfold rowsOf; simp [hm]
  have em2 : (rowsOf v res v.n).m = res := by unfold rowsOf; simp [hm]
  have ea1 : ∀ i j, (rowsOf v 0 res).at_ i j = v.at_ i j := by intro i j; unfold rowsOf; simp
  have ea2 : ∀ i j, (rowsOf v res v.n).at_ i j = v.at_ (res + i) j := by intro i j; unfold rowsOf; simp
  rw [en1, em1] at a3
  rw [en2, em2] at b3
  simp only [en1, em1, ea1] at a2 a4
  simp only [en2, em2, ea2] at b2 b4
  refine ⟨?_, ?_, ?_, ?_⟩
  · rw [List.pairwise_append]
    refine ⟨a1, ?_, ?_⟩
    · rw [List.pairwise_map]
      refine b1.imp ?_
      intro x y h
      unfold Before at h ⊢
      simp only
      omega
    · rintro ⟨i, j⟩ hx y hy
      simp only [List.mem_map] at hy
      obtain ⟨⟨c, e⟩, _, rfl⟩ := hy
      have := ((a2 i j).mp hx).1
      unfold Before
      simp only
      omega
  · intro i j
    rw [List.mem_append, a2]
    simp only [List.mem_map, Prod.mk.injEq, Prod.exists]
    constructor
    · rintro (⟨h1, h3, h4⟩ | ⟨c, e, hm', rfl, rfl⟩)
      · exact ⟨by omega, h3, by rw [if_pos h1]; exact h4⟩
      · obtain ⟨h1, h3, h4⟩ := (b2 c e).mp hm'
        refine ⟨by omega, h3, ?_⟩
        rw [if_neg (by omega), Nat.add_comm]
        exact h4
    · rintro ⟨h1, h3, h4⟩
      by_cases hi : i < res
      · rw [if_pos hi] at h4
        exact Or.inl ⟨hi, h3, h4⟩
      · rw [if_neg hi] at h4
        refine Or.inr ⟨i - res, j, (b2 _ _).mpr ⟨by omega, h3, ?_⟩, by omega, rfl⟩
        rw [show res + (i - res) = i by omega]
        exact h4
  · rw [List.length_append, a3, b3]; ring
  · intro i j hi hj
    by_cases h : i < res
    · rw [if_pos h, List.getElem?_append_left (by rw [a3]; nlinarith), a4 i j h hj]
    · rw [if_neg h, List.getElem?_append_right (by rw [a3]; push Not at h; nlinarith), a3]
      have : i * res + j - res * res = (i - res) * res + j := by
        have : i * res = (i - res) * res + res * res := by rw [← Nat.add_mul]; congr 1; omega
        omega
      rw [this, b4 (i - res) j (by omega) hj, show res + (i - res) = i by omega]

/-- the fields of the result for each projection -/
theorem init_vta {a : Str} (h : process a = .ok .vta) (k : Kind) (m : View) (res f : ℕ) (indices : Bool) (hdr : Str → Str) :
    initImg k m res f indices hdr a = .ok ⟨imgShape m res f, rays k m res, some (angMask m (rays k m res) res indices),
      some (mask2Of f (angMask m (rays k m res) res indices)), hdr "vta".toList⟩ := by
  unfold initImg
  rw [h]
  rfl

theorem init_vuv {a : Str} (h : process a = .ok .vuv) (k : Kind) (m : View) (res f : ℕ) (indices : Bool) (hdr : Str → Str) :
    initImg k m res f indices hdr a = .ok ⟨imgShape m res f, uvRays m res, none, none, hdr "vuv".toList⟩ := by
  unfold initImg
  rw [h]
  rfl

theorem init_vte {a : Str} (h : process a = .ok .vte) (k : Kind) (m : View) (res f : ℕ) (indices : Bool) (hdr : Str → Str) :
    initImg k m res f indices hdr a = .ok ⟨imgShape m res f, solidPixelrays m res,
      some (inViewMask m (solidPixelrays m res) indices), some (mask2Of f (inViewMask m (solidPixelrays m res) indices)),
      hdr "vte".toList⟩ := by
  unfold initImg
  rw [h]
  rfl

theorem rays_size (k : Kind) (m : View) (res : ℕ) : (rays k m res).n = res * aspect m ∧ (rays k m res).m = res := by
  unfold rays aspect
  split_ifs <;> simp [below, rays1, Nat.mul_two]

/-- in view of the half of the image the row belongs to -/
def InHalf (m : View) (res i : ℕ) (p : V3) : Prop := if i < res then m.inView 0 p else m.ivm.inView 0 p

/-- **C143** the mask of an angular image lists exactly the pixels whose vector is in view — in the second half of a 360
degree image, in view of the opposite mapper — once each, in row-major order; without indices it has one bit per pixel,
saying the same. Every mapper, resolution, number of channels, header. -/
theorem C143_mask {a : Str} (h : process a = .ok .vta) (k : Kind) (m : View) (res f : ℕ) (hdr : Str → Str) :
    ∃ (l : List (ℕ × ℕ)) (b : List Bool) (r r' : Out),
      initImg k m res f true hdr a = .ok r ∧ initImg k m res f false hdr a = .ok r' ∧ r'.vecs = r.vecs ∧
      r.mask = some (.idx l) ∧ r'.mask = some (.bits b) ∧ r'.mask2 = some (.same (.bits b)) ∧
      MaskIs (res * aspect m) res (fun i j => InHalf m res i (r.vecs.at_ i j)) l b := by
  by_cases h2 : m.two = true
  · obtain ⟨l, b, e1, e2, hm⟩ := maskIs_two m k res h2
    refine ⟨l, b, _, _, init_vta h k m res f true hdr, init_vta h k m res f false hdr, rfl, by rw [e1], by rw [e2],
      by rw [e2]; rfl, ?_⟩
    have : res * aspect m = 2 * res := by unfold aspect; rw [if_pos h2, Nat.mul_comm]
    rw [this]
    exact hm
  · have hh := maskIs_inView m (rays k m res)
    have e1 : angMask m (rays k m res) res true = .idx (inViewIdx m (rays k m res)) := by
      unfold angMask; rw [if_neg h2]; rfl
    have e2 : angMask m (rays k m res) res false = .bits (inViewBits m (rays k m res)) := by
      unfold angMask; rw [if_neg h2]; rfl
    refine ⟨_, _, _, _, init_vta h k m res f true hdr, init_vta h k m res f false hdr, rfl, by rw [e1], by rw [e2],
      by rw [e2]; rfl, ?_⟩
    obtain ⟨s1, s2⟩ := rays_size k m res
    obtain ⟨c1, c2, c3, c4⟩ := hh
    rw [s1, s2] at c3
    simp only [s1, s2] at c2 c4
    have ha : res * aspect m = res := by unfold aspect; rw [if_neg h2, Nat.mul_one]
    rw [ha] at c2 c3 c4 ⊢
    refine ⟨c1, ?_, c3, ?_⟩
    · intro i j
      rw [c2]
      refine ⟨fun ⟨x, y, z⟩ => ⟨x, y, ?_⟩, fun ⟨x, y, z⟩ => ⟨x, y, ?_⟩⟩
      · unfold InHalf; rw [if_pos x]; exact z
      · unfold InHalf at z; rw [if_pos x] at z; exact z
    · intro i j hi hj
      rw [c4 i j hi hj]
      unfold InHalf; rw [if_pos hi]

/-- **C143** the same for the equisolid projection, in the rows the vectors have -/
theorem C143_solid_mask {a : Str} (h : process a = .ok .vte) (k : Kind) (m : View) (res f : ℕ) (hdr : Str → Str) :
    ∃ (l : List (ℕ × ℕ)) (b : List Bool) (r r' : Out),
      initImg k m res f true hdr a = .ok r ∧ initImg k m res f false hdr a = .ok r' ∧ r'.vecs = r.vecs ∧
      r.mask = some (.idx l) ∧ r'.mask = some (.bits b) ∧ r'.mask2 = some (.same (.bits b)) ∧
      MaskIs res res (fun i j => m.inView 0 (r.vecs.at_ i j)) l b :=
  ⟨_, _, _, _, init_vte h k m res f true hdr, init_vte h k m res f false hdr, rfl, rfl, rfl, rfl,
    maskIs_inView m (solidPixelrays m res)⟩

/-! ### C144 -/

/-- **C144** colour images: `img[mask2] = values.ravel()` with one row of `values` per pixel of the mask and one column per
channel puts the value of every pixel and channel in its place and touches nothing else. -/
theorem C144_channels {a : Str} (h : process a = .ok .vta ∨ process a = .ok .vte) (k : Kind) (m : View) (res f : ℕ) (hf : 1 < f)
    (hdr : Str → Str) :
    ∃ (l : List (ℕ × ℕ)) (l2 : List (ℕ × ℕ × ℕ)) (r : Out), initImg k m res f true hdr a = .ok r ∧
      r.mask = some (.idx l) ∧ r.mask2 = some (.chan l2) ∧ l2.length = l.length * f ∧
      ∀ {α : Type} (im : ℕ → ℕ → ℕ → α) (vals : List α), vals.length = l.length * f →
        (∀ c i j, c < f → ∀ n : ℕ, l[n]? = some (i, j) → some (putChan im l2 vals c i j) = vals[n * f + c]?) ∧
        (∀ c i j, ¬(c < f ∧ (i, j) ∈ l) → putChan im l2 vals c i j = im c i j) := by
  have key : ∀ l : List (ℕ × ℕ), l.Nodup → ∃ l2, mask2Of f (.idx l) = .chan l2 ∧ l2.length = l.length * f ∧
      ∀ {α : Type} (im : ℕ → ℕ → ℕ → α) (vals : List α), vals.length = l.length * f →
        (∀ c i j, c < f → ∀ n : ℕ, l[n]? = some (i, j) → some (putChan im l2 vals c i j) = vals[n * f + c]?) ∧
        (∀ c i j, ¬(c < f ∧ (i, j) ∈ l) → putChan im l2 vals c i j = im c i j) := by
    intro l hl
    refine ⟨l.flatMap fun p => (List.range f).map fun c => (c, p.1, p.2), ?_, flat_length f l _, ?_⟩
    · unfold mask2Of
      simp only [hf, if_true]
      rw [chan_eq]
    · intro α im vals hv
      have hn := chan_nodup f l hl
      constructor
      · intro c i j hc n hn'
        refine (putChan_at _ vals im hn (by rw [hv, flat_length]) c i j).2 _ ?_
        obtain ⟨hlt, e⟩ := List.getElem?_eq_some_iff.mp hn'
        rw [flat_get f l (fun p c => (c, p.1, p.2)) n c hlt hc, e]
      · intro c i j hc
        refine (putChan_at _ vals im hn (by rw [hv, flat_length]) c i j).1 ?_
        intro hm
        simp only [List.mem_flatMap, List.mem_map, List.mem_range, Prod.mk.injEq] at hm
        obtain ⟨p, hp, c', hc', rfl, rfl, rfl⟩ := hm
        exact hc ⟨hc', hp⟩
  rcases h with h | h
  · obtain ⟨l, b, r, r', e1, -, -, e4, -, -, hm⟩ := C143_mask h k m res f hdr
    obtain ⟨l2, x1, x2, x3⟩ := key l (before_nodup hm.order)
    refine ⟨l, l2, r, e1, e4, ?_, x2, fun im vals => x3 im vals⟩
    rw [init_vta h] at e1
    have e1 := Except.ok.inj e1
    subst e1
    simp only [Option.some.injEq] at e4
    rw [e4, x1]
  · obtain ⟨l, b, r, r', e1, -, -, e4, -, -, hm⟩ := C143_solid_mask h k m res f hdr
    obtain ⟨l2, x1, x2, x3⟩ := key l (before_nodup hm.order)
    refine ⟨l, l2, r, e1, e4, ?_, x2, fun im vals => x3 im vals⟩
    rw [init_vte h] at e1
    have e1 := Except.ok.inj e1
    subst e1
    simp only [Option.some.injEq] at e4
    rw [e4, x1]

/-! ### C142 shapes -/

/-- what C142 asks: the vectors have one row and column per row and column of the image -/
def C142_statement : Prop :=
  ∀ (k : Kind) (m : View) (res f : ℕ) (indices : Bool) (hdr : Str → Str) (a : Str) (r : Out),
    initImg k m res f indices hdr a = .ok r →
      r.shape = (if 1 < f then [f, r.vecs.n, r.vecs.m] else [r.vecs.n, r.vecs.m])

/-- **C142** holds for the angular and the square projection, and for the equisolid one unless the view is a 360 degree view
(`C142_refuted`); in every case the image is `res` wide and `res * aspect` high. -/
theorem C142_partial (k : Kind) (m : View) (res f : ℕ) (indices : Bool) (hdr : Str → Str) (a : Str) (r : Out)
    (h : initImg k m res f indices hdr a = .ok r) :
    r.shape = (if 1 < f then [f, res * aspect m, res] else [res * aspect m, res]) ∧ r.vecs.m = res ∧
    (process a ≠ .ok .vte ∨ m.two = false → r.vecs.n = res * aspect m) ∧
    (process a = .ok .vte → r.vecs.n = res) := by
  have hp : ∃ p, process a = .ok p := by
    cases hq : process a with
    | error e => unfold initImg at h; rw [hq] at h; cases h
    | ok p => exact ⟨p, rfl⟩
  obtain ⟨p, hp⟩ := hp
  obtain ⟨s1, s2⟩ := rays_size k m res
  cases p with
  | vta =>
    rw [init_vta hp] at h
    cases h
    exact ⟨rfl, s2, fun _ => s1, fun e => by rw [hp] at e; cases e⟩
  | vuv =>
    rw [init_vuv hp] at h
    cases h
    exact ⟨rfl, rfl, fun _ => Nat.mul_comm _ _, fun e => by rw [hp] at e; cases e⟩
  | vte =>
    rw [init_vte hp] at h
    cases h
    refine ⟨rfl, rfl, fun e => ?_, fun _ => rfl⟩
    rcases e with e | e
    · exact absurd hp e
    · show res = res * aspect m
      unfold aspect
      simp [e]

/-- an equisolid image of a 360 degree view has twice as many rows as vectors -/
theorem C142_refuted : ¬ C142_statement := by
  intro h
  have e := init_vte (a := "vte".toList) (by decide) .angular (View.new ⟨0, 1, 0⟩ 360) 1 1 true id
  have h1 := h _ _ _ _ _ _ _ _ e
  have h2 : (View.new ⟨0, 1, 0⟩ 360).two = true := (new_sf360 (d := ⟨0, 1, 0⟩)).2.2.2.1
  simp [imgShape, aspect, solidPixelrays, h2] at h1

/-! ### C143 in the image plane -/

/-- the pixel centre lies strictly inside the circle inscribed in the `res × res` square its row belongs to -/
def InDisk (res i j : ℕ) : Prop :=
  (((i % res : ℕ) : ℝ) + 1 / 2 - res / 2) ^ 2 + ((j : ℝ) + 1 / 2 - res / 2) ^ 2 < ((res : ℝ) / 2) ^ 2

theorem disk_div {res : ℕ} (hr : 0 < res) (x y : ℝ) :
    (x / res - 1 / 2) ^ 2 + (y / res - 1 / 2) ^ 2 < (1 / 2) ^ 2 ↔ (x - res / 2) ^ 2 + (y - res / 2) ^ 2 < ((res : ℝ) / 2) ^ 2 := by
  have h : (0 : ℝ) < res := by exact_mod_cast hr
  rw [show (x / res - 1 / 2) ^ 2 + (y / res - 1 / 2) ^ 2 = ((x - res / 2) ^ 2 + (y - res / 2) ^ 2) / (res : ℝ) ^ 2 by
    field_simp, div_lt_iff₀ (by positivity), show (1 / 2 : ℝ) ^ 2 * (res : ℝ) ^ 2 = ((res : ℝ) / 2) ^ 2 by ring]

theorem pixel_disk (d : V3) (h : Clear d) (va : ℝ) (h0 : 0 < va) (h1 : va ≤ 180) {res i j : ℕ} (hi : i < res) (hj : j < res) :
    (View.new d va).inView 0 ((rays1 .angular (View.new d va) res).at_ i j) ↔
      ((i : ℝ) + 1 / 2 - res / 2) ^ 2 + ((j : ℝ) + 1 / 2 - res / 2) ^ 2 < ((res : ℝ) / 2) ^ 2 := by
  obtain ⟨a0, a1⟩ := cell_unit hi
  obtain ⟨b0, b1⟩ := cell_unit hj
  have e : ((rays1 .angular (View.new d va) res).at_ i j) = (View.new d va).vxy2xyz (((i : ℝ) + 1 / 2) / res, ((j : ℝ) + 1 / 2) / res) := rfl
  norm_num at a0 a1 b0 b1
  rw [e, C53_circle_partial d h va h0 h1 _ (by norm_num; linarith) (by norm_num; linarith) (by norm_num; linarith) (by norm_num; linarith)]
  exact disk_div (by omega) _ _

/-- **C143** in the image plane: for `ViewMapper` the pixels of the mask are those whose centre lies strictly inside the circle
inscribed in the image, in each half of a 360 degree image. Missing for the full claim: the nearly vertical directions of C50. -/
theorem C143_circle_partial {a : Str} (h : process a = .ok .vta) (d : V3) (hd : Clear d) (va : ℝ) (hva : 0 < va ∧ va ≤ 180 ∨ va = 360)
    (res f : ℕ) (hdr : Str → Str) :
    ∃ (l : List (ℕ × ℕ)) (b : List Bool) (r r' : Out),
      initImg .angular (View.new d va) res f true hdr a = .ok r ∧ initImg .angular (View.new d va) res f false hdr a = .ok r' ∧
      r.mask = some (.idx l) ∧ r'.mask = some (.bits b) ∧
      MaskIs (res * if va = 360 then 2 else 1) res (InDisk res) l b := by
  obtain ⟨l, b, r, r', e1, e2, -, e4, e5, -, hm⟩ := C143_mask h .angular (View.new d va) res f hdr
  have hasp : aspect (View.new d va) = if va = 360 then 2 else 1 := by unfold aspect View.new; simp
  rw [hasp] at hm
  have hvecs : r.vecs = rays .angular (View.new d va) res := by
    rw [init_vta h] at e1
    cases e1
    rfl
  have key : ∀ i j, i < res * (if va = 360 then 2 else 1) → j < res →
      (InHalf (View.new d va) res i (r.vecs.at_ i j) ↔ InDisk res i j) := by
    intro i j hi hj
    rw [hvecs]
    rcases hva with ⟨h0, h1⟩ | h3
    · have hne : va ≠ 360 := by linarith
      rw [if_neg hne, Nat.mul_one] at hi
      have ht : (View.new d va).two = false := (new_sf hne).2.2.2.1
      unfold InHalf rays InDisk
      rw [if_pos hi, if_neg (by simp [ht]), Nat.mod_eq_of_lt hi]
      exact pixel_disk d hd va h0 h1 hi hj
    · subst h3
      rw [if_pos rfl] at hi
      have ht : (View.new d 360).two = true := (new_sf360 (d := d)).2.2.2.1
      unfold InHalf rays InDisk
      rw [if_pos ht]
      by_cases hlt : i < res
      · rw [if_pos hlt, Nat.mod_eq_of_lt hlt, ← pixel_disk d hd 180 (by norm_num) le_rfl hlt hj, inView_360]
        have : (below (rays1 .angular (View.new d 360) res) (rays1 .angular (View.new d 360).ivm res)).at_ i j
            = (rays1 .angular (View.new d 180) res).at_ i j := by
          unfold below
          have : i < (rays1 .angular (View.new d 360) res).n := hlt
          simp only [this, if_true]
          exact vxy2xyz_360 d _
        rw [this]
      · rw [if_neg hlt, ivm_eq hd.1]
        have hm' : i % res = i - res := by
          rw [Nat.mod_eq_sub_mod (by omega), Nat.mod_eq_of_lt (by omega)]
        rw [hm', ← pixel_disk d.neg hd.neg 180 (by norm_num) le_rfl (by omega : i - res < res) hj]
        have : (below (rays1 .angular (View.new d 360) res) (rays1 .angular (View.new d.neg 180) res)).at_ i j
            = (rays1 .angular (View.new d.neg 180) res).at_ (i - res) j := by
          unfold below
          have : ¬ i < (rays1 .angular (View.new d 360) res).n := hlt
          simp only [this, if_false]
          rfl
        rw [this]
  refine ⟨l, b, r, r', e1, e2, e4, e5, hm.order, ?_, hm.len, ?_⟩
  · intro i j
    rw [hm.mem]
    exact ⟨fun ⟨x, y, z⟩ => ⟨x, y, (key i j x y).mp z⟩, fun ⟨x, y, z⟩ => ⟨x, y, (key i j x y).mpr z⟩⟩
  · intro i j hi hj
    rw [hm.bit i j hi hj]
    exact key i j hi hj

example : Clear ⟨0, 1, 0⟩ ∧ process "fisheye".toList = .ok .vta := ⟨clear_example.1, by decide⟩
/-- the middle pixel of three is in the mask, in both halves; the corner of two is, of eight is not -/
example : InDisk 3 4 1 ∧ InDisk 2 0 0 ∧ ¬ InDisk 8 0 0 := by unfold InDisk; norm_num

/-- what C143 asks in the image plane, for every view -/
def C143_statement : Prop :=
  ∀ (d : V3), d ≠ V3.zero → ∀ (va : ℝ), 0 < va ∧ va ≤ 180 ∨ va = 360 → ∀ (res f : ℕ) (hdr : Str → Str) (l : List (ℕ × ℕ)) (r : Out),
    initImg .angular (View.new d va) res f true hdr "vta".toList = .ok r → r.mask = some (.idx l) →
    ∀ i j, i < res * (if va = 360 then 2 else 1) → j < res → ((i, j) ∈ l ↔ InDisk res i j)

/-- a narrow view in a nearly vertical direction does not contain its own centre -/
theorem C143_refuted : ¬ C143_statement := by
  intro h
  have hpi := pi_pos
  obtain ⟨d, hd, hn⟩ := exists_not_look
  have hc : ∀ va, (View.new d va).v2w ⟨0, 0, 1⟩ = (View.new d 180).v2w ⟨0, 0, 1⟩ := fun va => rfl
  set c := (View.new d 180).v2w ⟨0, 0, 1⟩ with hcd
  have hw : (View.new d 180).w2v (View.new d 180).dxyz ≠ ⟨0, 0, 1⟩ := by
    rw [new_w2v hd]
    intro e
    apply hn
    rw [← norm1_norm hd]; exact e
  have hcu : c.normSq = 1 := by
    have := (C50_isometry d hd 180 ⟨0, 0, 1⟩ ⟨0, 0, 1⟩).2.2.2
    rw [← hcd] at this
    have e : c.normSq = c.dot c := by unfold V3.normSq V3.dot; ring
    rw [e, this]
    simp [V3.dot]
  have hdu : (View.new d 180).dxyz.normSq = 1 := by
    rw [show (View.new d 180).dxyz = norm1 d from rfl, norm1_norm hd]
    exact normSq_norm hd
  have hne : (View.new d 180).dxyz ≠ c := by
    intro e
    apply hw
    rw [e, hcd, (C50_isometry d hd 180 ⟨0, 0, 1⟩ ⟨0, 0, 1⟩).2.1]
  have hdot : (View.new d 180).dxyz.dot c < 1 := by
    by_contra hge
    push Not at hge
    apply hne
    have e : ((View.new d 180).dxyz.sub c).normSq ≤ 0 := by
      have : ((View.new d 180).dxyz.sub c).normSq = (View.new d 180).dxyz.normSq + c.normSq - 2 * (View.new d 180).dxyz.dot c := by
        unfold V3.sub V3.normSq V3.dot; ring
      rw [this, hcu, hdu]; linarith
    generalize (View.new d 180).dxyz = u at e
    clear_value c
    obtain ⟨u1, u2, u3⟩ := u
    obtain ⟨v1, v2, v3⟩ := c
    unfold V3.sub V3.normSq at e
    simp only at e
    have a1 : u1 = v1 := by nlinarith [sq_nonneg (u1 - v1), sq_nonneg (u2 - v2), sq_nonneg (u3 - v3)]
    have a2 : u2 = v2 := by nlinarith [sq_nonneg (u1 - v1), sq_nonneg (u2 - v2), sq_nonneg (u3 - v3)]
    have a3 : u3 = v3 := by nlinarith [sq_nonneg (u1 - v1), sq_nonneg (u2 - v2), sq_nonneg (u3 - v3)]
    rw [a1, a2, a3]
  have hpos : 0 < (View.new d 180).radians c := by
    unfold View.radians Geo.radians ctheta
    rw [arccos_pos]
    unfold clip1
    exact min_lt_of_left_lt (max_lt hdot (by norm_num))
  set e := (View.new d 180).radians c with he
  set va := min 180 (e * 360 / π) with hva
  have v0 : 0 < va := lt_min (by norm_num) (by positivity)
  have v1 : va ≤ 180 := min_le_left _ _
  have hp : process "vta".toList = .ok .vta := by decide
  have ht : (View.new d va).two = false := (new_sf (by linarith)).2.2.2.1
  have ei := init_vta hp .angular (View.new d va) 1 1 true id
  have hmask : angMask (View.new d va) (rays .angular (View.new d va) 1) 1 true = .idx (inViewIdx (View.new d va) (rays .angular (View.new d va) 1)) := by
    unfold angMask
    rw [if_neg (by simp [ht])]
    rfl
  have h1 := (h d hd va (Or.inl ⟨v0, v1⟩) 1 1 id _ _ ei (by rw [hmask]) 0 0 (by rw [if_neg (by linarith)]; norm_num) (by norm_num)).mpr
    (by unfold InDisk; norm_num)
  have h2 := ((mem_idx _ _ _ _).mp h1).2.2
  have hray : (rays .angular (View.new d va) 1).at_ 0 0 = c := by
    unfold rays
    rw [if_neg (by simp [ht])]
    show (View.new d va).vxy2xyz _ = c
    rw [← hc va]
    unfold View.vxy2xyz View.vxy2xyzM
    simp only
    congr 1
    have : (View.new d va).centred ((pixelCentre 0 0).1 / (1 : ℕ), (pixelCentre 0 0).2 / (1 : ℕ)) = (0, 0) := by
      unfold View.centred pixelCentre; norm_num
    rw [this]
    unfold polar2view rad2
    simp
  rw [hray] at h2
  unfold View.inView at h2
  obtain ⟨_, _, e1, e2, e3⟩ := new_sf (d := d) (va := va) (by linarith)
  have hrad : (View.new d va).radians c = e := rfl
  rw [hrad, e1, e3, sub_zero] at h2
  obtain ⟨c1, c2, c3, c4⟩ := cf_bounds v0 v1
  have h3 : va * π / 360 ≤ e := by
    have : va ≤ e * 360 / π := min_le_right _ _
    rw [le_div_iff₀ hpi] at this
    linarith
  have h4 : chordFactor va * va * π / 360 ≤ va * π / 360 := by
    apply div_le_div_of_nonneg_right _ (by norm_num)
    nlinarith
  linarith

/-! ### C146 the square projection -/

theorem bin2uv_row {res i j : ℕ} (hj : j < res) :
    bin2uv ((i * res + j : ℕ) : ℤ) res 0.5 = (((i : ℝ) + 0.5) / res, ((j : ℝ) + 0.5) / res) := by
  have hr : (1 : ℤ) ≤ res := by omega
  have e1 : (((i * res + j : ℕ) : ℤ)) / (res : ℤ) = i := by
    rw [← Int.natCast_ediv, Nat.mul_comm, Nat.mul_add_div (by omega), Nat.div_eq_of_lt hj]; simp
  have e2 : (((i * res + j : ℕ) : ℤ)) % (res : ℤ) = j := by
    rw [← Int.natCast_emod, Nat.mul_comm, Nat.mul_add_mod, Nat.mod_eq_of_lt hj]
  refine Prod.ext ?_ ?_
  · rw [bin2uv_fst hr, e1]; simp
  · unfold bin2uv
    simp only
    rw [e2]; simp

theorem cell_back {res i j : ℕ} (hi : i < 2 * res) (hj : j < res) :
    uv2ij true res (((i : ℝ) + 0.5) / res, ((j : ℝ) + 0.5) / res) = ((i : ℤ), (j : ℤ)) := by
  have hr : (0 : ℝ) < res := by exact_mod_cast (by omega : 0 < res)
  have fl : ∀ k : ℕ, ⌊((res : ℤ) : ℝ) * (((k : ℝ) + 0.5) / res)⌋ = k := by
    intro k
    rw [Int.cast_natCast, mul_div_cancel₀ _ hr.ne', Int.floor_eq_iff]
    constructor <;> norm_num
  unfold uv2ij axisBin
  simp only [fl, if_true]
  have hj' : ((j : ℤ) % (res : ℤ)) = j := Int.emod_eq_of_lt (by omega) (by omega)
  rw [hj']
  by_cases h : i < res
  · rw [if_neg, Int.emod_eq_of_lt (by omega) (by omega)]
    · simp
    · rw [ge_iff_le, not_le, div_lt_one hr]
      have : (i : ℝ) + 1 ≤ res := by exact_mod_cast h
      linarith
  · rw [if_pos]
    · congr 1
      rw [← Int.sub_emod_right, Int.emod_eq_of_lt (by omega) (by omega)]
      omega
    · rw [ge_iff_le, one_le_div hr]
      have : (res : ℝ) ≤ i := by exact_mod_cast (by omega : res ≤ i)
      linarith

/-- **C146** an image in the square projection: no mask, every vector has length one, and the cell in which a vector is drawn
(`add_vecs_to_img(..., fisheye=False)`) is the one it was given for — every view direction, view angles up to 180 degrees and
360, every resolution. -/
theorem C146_square {a : Str} (h : process a = .ok .vuv) (d : V3) (hd : d ≠ V3.zero) (va : ℝ) (hva : 0 < va ∧ va ≤ 180 ∨ va = 360)
    (k : Kind) (res f : ℕ) (indices : Bool) (hdr : Str → Str) :
    ∃ r, initImg k (View.new d va) res f indices hdr a = .ok r ∧ r.mask = none ∧ r.mask2 = none ∧
      ∀ i j, i < res * aspect (View.new d va) → j < res →
        (r.vecs.at_ i j).normSq = 1 ∧
        uv2ij true res ((View.new d va).xyz2uv (r.vecs.at_ i j)) = ((i : ℤ), (j : ℤ)) := by
  refine ⟨_, init_vuv h k _ res f indices hdr, rfl, rfl, ?_⟩
  intro i j hi hj
  show ((View.new d va).uv2xyz _).normSq = 1 ∧ _
  have hr : (0 : ℝ) < res := by exact_mod_cast (by omega : 0 < res)
  have e : (uvRays (View.new d va) res).at_ i j = (View.new d va).uv2xyz (((i : ℝ) + 0.5) / res, ((j : ℝ) + 0.5) / res) := by
    unfold uvRays; simp only; rw [bin2uv_row hj]
  rw [bin2uv_row hj]
  simp only [e]
  obtain ⟨b0, b1⟩ := cell_unit hj
  rcases hva with ⟨h0, h1⟩ | h3
  · have hne : va ≠ 360 := by linarith
    have hi' : i < res := by
      have : aspect (View.new d va) = 1 := by unfold aspect View.new; simp [hne]
      rwa [this, Nat.mul_one] at hi
    obtain ⟨a0, a1⟩ := cell_unit hi'
    obtain ⟨c1, c2⟩ := C51_round_trip d hd va h0 h1 (((i : ℝ) + 0.5) / res, ((j : ℝ) + 0.5) / res) a0.le a1.le b0.le b1.le
    exact ⟨c1, by rw [c2]; exact cell_back (by omega) hj⟩
  · subst h3
    have hi' : i < 2 * res := by
      have : aspect (View.new d 360) = 2 := by unfold aspect View.new; simp
      rw [this] at hi; omega
    have a0 : 0 < ((i : ℝ) + 0.5) / res := by positivity
    have a1 : ((i : ℝ) + 0.5) / res < 2 := by
      rw [div_lt_iff₀ hr]
      have : (i : ℝ) + 1 ≤ 2 * res := by exact_mod_cast hi'
      linarith
    have ane : ((i : ℝ) + 0.5) / res ≠ 1 := by
      intro e
      rw [div_eq_one_iff_eq hr.ne'] at e
      have : ((2 * i + 1 : ℕ) : ℝ) = ((2 * res : ℕ) : ℝ) := by push_cast; linarith
      have := Nat.cast_injective this
      omega
    obtain ⟨c1, c2, -⟩ := C51_round_trip_360 d hd (((i : ℝ) + 0.5) / res, ((j : ℝ) + 0.5) / res) a0.le a1.le b0.le b1.le
    refine ⟨c1, ?_⟩
    rw [c2]
    · exact cell_back hi' hj
    · rcases lt_or_gt_of_ne ane with h | h
      · exact Or.inl h.le
      · exact Or.inr ⟨h, a1, b0, b1⟩

example : process "square".toList = .ok .vuv ∧ (⟨1, 2, 3⟩ : V3) ≠ V3.zero := ⟨by decide, by simp [V3.zero]⟩

/-! ### C145 the header belongs to the vectors -/

/-- what C145 asks: an image saved with its header line is read back with the vectors it was made with -/
def C145_statement : Prop :=
  ∀ (α : Type) (io : ViewHdr.NumIO α), ViewHdr.NumOk io → ∀ (pint : Str → Option ℤ) (dir : V3) (angle : ℝ),
    Clear dir → 0 < angle ∧ angle ≤ 180 ∨ angle = 360 → ∀ (k : Kind), (k = .solid → angle ≠ 360) → ∀ (va : α) (d pt : α × α × α) (up : Bool),
    io.val va = (View.new dir angle).va → ViewHdr.vec io d = (View.new dir angle).dxyz → ∀ (res : ℕ), 0 < res → ∀ (f : ℕ) (indices : Bool) (r : Out) (a : Str),
    process a = .ok .vta → initImg k (View.new dir angle) res f indices (ViewHdr.header io va d pt up) a = .ok r →
    ∀ (pre post err dims : Str), ViewHdr.TextOk (pre ++ r.header ++ '\n' :: post) err post →
    ViewHdr.imgSize pint dims = .ok (ViewHdr.imgDims (View.new dir angle) res) →
    ∃ v p, ViewHdr.hdr2vm io pint (pre ++ r.header ++ '\n' :: post) err dims = .ok (some (v, p)) ∧
      ∀ i j, i < r.vecs.n → j < r.vecs.m → (rays .angular v res).at_ i j = r.vecs.at_ i j

/-- **C145** holds for `ViewMapper`, also for 360 degree views: the header line of an angular image is read back as a mapper
whose pixel rays are the vectors of the image. Missing for the full claim: the equisolid mappers (`C145_refuted`). -/
theorem C145_header_partial {α : Type} (io : ViewHdr.NumIO α) (ok : ViewHdr.NumOk io) (pint : Str → Option ℤ) (dir : V3) (angle : ℝ)
    (hang : 0 < angle ∧ angle ≤ 180 ∨ angle = 360) (va : α) (d pt : α × α × α) (up : Bool)
    (hva : io.val va = (View.new dir angle).va) (hd : ViewHdr.vec io d = (View.new dir angle).dxyz) (res : ℕ) (hres : 0 < res) (f : ℕ)
    (indices : Bool) (r : Out) {a : Str} (ha : process a = .ok .vta)
    (hi : initImg .angular (View.new dir angle) res f indices (ViewHdr.header io va d pt up) a = .ok r)
    (pre post err dims : Str) (ht : ViewHdr.TextOk (pre ++ r.header ++ '\n' :: post) err post)
    (hdim : ViewHdr.imgSize pint dims = .ok (ViewHdr.imgDims (View.new dir angle) res)) :
    ∃ v, ViewHdr.hdr2vm io pint (pre ++ r.header ++ '\n' :: post) err dims = .ok (some (v, ViewHdr.vec io pt)) ∧
      rays .angular v res = r.vecs := by
  rw [init_vta ha] at hi
  cases hi
  exact ⟨View.new dir angle, ViewHdr.C17_round_trip_partial io ok pint dir angle hang va d pt up hva hd pre post err dims res
    (by exact_mod_cast hres) ht hdim, rfl⟩

/-- the equisolid mapper writes `-vta` in the header of an equisolid image: read back, pixel (0, 1) of three looks 6 percent
closer to the centre -/
theorem C145_refuted : ¬ C145_statement := by
  intro h
  have hpi := pi_gt_three
  have hc := clear_example.1
  have hdim : ViewHdr.imgSize (fun _ => some 3) (ViewHdr.spaced ["f".toList, "-Y".toList, "3".toList, "+X".toList, "3".toList])
      = .ok (ViewHdr.imgDims (View.new ⟨0, 1, 0⟩ 180) (3 : ℕ)) := by
    rw [ViewHdr.C17_img_size _ _ _ _ 3 3 (by decide) (by decide) (by decide) (by decide) (by decide) rfl rfl]
    simp [ViewHdr.imgDims, View.new]
  have hva : ViewHdr.unary.val 180 = (View.new ⟨0, 1, 0⟩ 180).va := by simp [ViewHdr.unary, View.new, vangle]
  have hd : ViewHdr.vec ViewHdr.unary (0, 1, 0) = (View.new ⟨0, 1, 0⟩ 180).dxyz := by
    rw [show (View.new ⟨0, 1, 0⟩ 180).dxyz = norm1 ⟨0, 1, 0⟩ from rfl, ViewHdr.norm1_y]
    simp [ViewHdr.vec, ViewHdr.unary]
  have ht : ViewHdr.TextOk ([] ++ ViewHdr.header ViewHdr.unary 180 (0, 1, 0) (0, 1, 0) false "vta".toList ++ '\n' :: []) [] [] := by
    refine ⟨by decide, ?_, by decide⟩
    apply ViewHdr.afterLast_absent (c := 'n') (by decide)
    intro h
    simp only [List.nil_append, List.mem_append, List.mem_singleton] at h
    rcases h with h | h
    · exact ViewHdr.header_no _ 'n' (by decide) (by decide) _ _ _ _ h
    · exact absurd h (by decide)
  have e := init_vta (a := "vta".toList) (by decide) .solid (View.new ⟨0, 1, 0⟩ 180) 3 1 true
    (ViewHdr.header ViewHdr.unary 180 (0, 1, 0) (0, 1, 0) false)
  obtain ⟨v, p, h1, h2⟩ := h ℕ ViewHdr.unary ViewHdr.unary_ok (fun _ => some 3) ⟨0, 1, 0⟩ 180 hc (Or.inl ⟨by norm_num, le_rfl⟩) .solid
    (fun _ => by norm_num) 180 (0, 1, 0) (0, 1, 0) false hva hd 3 (by norm_num) 1 true _ "vta".toList (by decide) e [] [] [] _ ht hdim
  have h3 := ViewHdr.C17_round_trip_partial ViewHdr.unary ViewHdr.unary_ok (fun _ => some 3) ⟨0, 1, 0⟩ 180 (Or.inl ⟨by norm_num, le_rfl⟩)
    180 (0, 1, 0) (0, 1, 0) false hva hd [] [] [] _ (3 : ℕ) (by norm_num) ht hdim
  simp only at h1
  rw [h3] at h1
  have hv : v = View.new ⟨0, 1, 0⟩ 180 := by
    simp only [Except.ok.injEq, Option.some.injEq, Prod.mk.injEq] at h1
    exact h1.1.symm
  subst hv
  have ht2 : (View.new ⟨0, 1, 0⟩ 180).two = false := (new_sf (by norm_num)).2.2.2.1
  have h4 := h2 0 1 (by simp [rays, ht2, rays1]) (by simp [rays, ht2, rays1])
  have h5 := congrArg (View.new ⟨0, 1, 0⟩ 180).radians h4
  have eq1 : (rays .angular (View.new ⟨0, 1, 0⟩ 180) 3).at_ 0 1 = (View.new ⟨0, 1, 0⟩ 180).vxy2xyz (1 / 2 - 1 / 3, 1 / 2) := by
    unfold rays
    rw [if_neg (by simp [ht2])]
    unfold rays1 vray pixelCentre
    norm_num
  have eq2 : (rays .solid (View.new ⟨0, 1, 0⟩ 180) 3).at_ 0 1 = (View.new ⟨0, 1, 0⟩ 180).solidVxy2xyz (1 / 2 - 1 / 3, 1 / 2) := by
    unfold rays
    rw [if_neg (by simp [ht2])]
    unfold rays1 vray pixelCentre
    norm_num
  have hoff : off (1 / 2 - 1 / 3, 1 / 2) = 1 / 3 := by
    unfold off rad2
    simp only
    rw [show ((1 : ℝ) / 2 - 1 / 3 - 1 / 2) ^ 2 + (1 / 2 - 1 / 2) ^ 2 = (1 / 3) ^ 2 by norm_num, sqrt_sq (by norm_num)]
  simp only at h5
  rw [eq1, eq2, C53_equiangular_partial _ hc 180 (by norm_num) le_rfl _ (by norm_num) (by norm_num) (by norm_num) (by norm_num),
    C57_law_partial _ hc 180 (by norm_num) le_rfl _ (by rw [hoff]; norm_num), hoff] at h5
  have hs : √(((1 : ℝ) / 2 - 1 / 3 - 1 / 2) ^ 2 + (1 / 2 - 1 / 2) ^ 2) = 1 / 3 := hoff
  rw [hs, cf_180, show (180 : ℝ) * π / 180 * (1 / 3) / 2 = π / 6 by ring, sin_pi_div_six,
    show (180 : ℝ) * π / 180 * (1 / 3) = π / 3 by ring] at h5
  obtain ⟨p0, p1⟩ := rho_bound (r := π / 3) (by linarith)
  generalize π / 3 / (π / 3 + 1e-9) = ρ at *
  have hs2 : √2 ≤ 1.4143 := by apply (sqrt_le_left (by norm_num)).mpr; norm_num
  have hs0 : 0 < √2 := by positivity
  have h6 : 1 / 3 * √2 = 1 / 2 * ρ := by
    have : π * (1 / 3 * √2) = π * (1 / 2 * ρ) := by
      have h7 := congrArg (· * √2) h5
      have : 1 * (π / √2) * (1 / 2) * ρ * √2 = π * (1 / 2 * ρ) := by field_simp
      rw [this] at h7
      rw [← h7]; ring
    exact mul_left_cancel₀ (by positivity) this
  norm_num at hs2 p0
  linarith

/-! ### C147 the equisolid methods of `ViewMapper` -/

/-- **C147** for view angles up to 180 degrees the equisolid methods are the transforms of `SolidViewMapper` for the same view;
a 360 degree view uses those of the 180 degree view. -/
theorem C147_same (d : V3) (va : ℝ) (h1 : va ≤ 180) (q : ℝ × ℝ) (p : V3) :
    solidVxy2xyz (View.new d va) q = (View.new d va).solidVxy2xyz q ∧
    (∀ x, solidXyz2vxy (View.new d va) p = some x → x = (View.new d va).solidXyz2vxy p) ∧
    solidVxy2xyz (View.new d 360) q = (View.new d 180).solidVxy2xyz q := by
  have e1 : (View.new d va).va = va := (new_sf (by linarith)).2.2.1
  have e2 : (View.new d 360).va = 180 := (new_sf360 (d := d)).2.2.1
  have e3 : (View.new d 360).cf = (View.new d 180).cf := by
    rw [(new_sf360 (d := d)).2.2.2.2, (new_sf (by norm_num)).2.2.2.2]
  have e4 : (View.new d 180).va = 180 := (new_sf (by norm_num)).2.2.1
  refine ⟨?_, ?_, ?_⟩
  · unfold solidVxy2xyz View.solidVxy2xyz
    rw [e1, min_eq_left h1]
  · intro x hx
    unfold solidXyz2vxy at hx
    rw [e1, min_eq_left h1] at hx
    split_ifs at hx
    have := Option.some.inj hx
    unfold View.solidXyz2vxy
    rw [e1, this]
  · unfold solidVxy2xyz View.solidVxy2xyz
    rw [e2, e3, e4, min_self]
    rfl

theorem solidArg_eq {va : ℝ} (h0 : 0 < va) (q : ℝ × ℝ) : solidArg va q = vsize va * off q * √2 / π := by
  unfold solidArg
  rw [show rad2 ((q.1 - 1 / 2) * (va * π / 180), (q.2 - 1 / 2) * (va * π / 180)) = vsize va * off q from soXY_rad h0 q]

/-- **C147** pixel round trip: the ray of a pixel whose centre is inside the inscribed circle is in that pixel again, as long as
the image has fewer pixels per degree than two million. -/
theorem C147_pixel_round_trip (d : V3) (hd : d ≠ V3.zero) (va : ℝ) (h0 : 0 < va) (h1 : va ≤ 180) (res i j : ℕ) (hres : 0 < res)
    (hbig : (res : ℝ) ≤ 2e6 * va)
    (hin : ((i : ℝ) + 1 / 2 - res / 2) ^ 2 + ((j : ℝ) + 1 / 2 - res / 2) ^ 2 < ((res : ℝ) / 2) ^ 2) :
    solidRay2pixel (View.new d va) res (solidPixel2ray (View.new d va) res (pixelCentre i j)) = some ((i : ℤ), (j : ℤ)) := by
  have hr : (0 : ℝ) < res := by exact_mod_cast hres
  set q : ℝ × ℝ := (((i : ℝ) + 1 / 2) / res, ((j : ℝ) + 1 / 2) / res) with hq
  have hoff : off q < 1 / 2 := by
    have := (disk_div hres ((i : ℝ) + 1 / 2) ((j : ℝ) + 1 / 2)).mpr hin
    exact (rad2_lt_half q).mpr this
  have hv := vsize_pos h0
  have e1 : (View.new d va).va = va := (new_sf (by linarith)).2.2.1
  have ray : solidPixel2ray (View.new d va) res (pixelCentre i j) = (View.new d va).solidVxy2xyz q := by
    unfold solidPixel2ray
    rw [(C147_same d va h1 _ V3.zero).1]
    rfl
  have hdiff := (C57_round_trip_partial d hd va h0 h1 q hoff.le).1
  obtain ⟨g0, g1⟩ := fromSolid_lt h0 h1 q (by norm_num; linarith)
  have harg : solidArg va ((View.new d va).xyz2vxy ((View.new d va).solidVxy2xyz q)) ≤ 1 := by
    rw [solidArg_eq h0, solid_to_ang hd h0 h1 q (by norm_num; linarith)]
    have : off ((fromSolid va q).1 + 1 / 2, (fromSolid va q).2 + 1 / 2) = rad2 (fromSolid va q) := by
      unfold off; simp
    rw [this, rad_fromSolid h0 q g0]
    obtain ⟨r0, r1⟩ := vsize_off h0 h1 q hoff.le
    obtain ⟨_, _, g2⟩ := gfac_bounds r0 r1
    have e : vsize va * (off q * gfac (vsize va * off q)) * √2 / π = vsize va * off q * gfac (vsize va * off q) * √2 / π := by ring
    rw [e, g2]
    have hs2 : 0 < √2 := by positivity
    have hpi := pi_pos
    have hsn : 0 ≤ sin (vsize va * off q / 2) := sin_nonneg_of_nonneg_of_le_pi (by linarith) (by linarith)
    have hden : 0 < vsize va * off q + 1e-9 := by norm_num; linarith
    have hfr : vsize va * off q / (vsize va * off q + 1e-9) ≤ 1 := by
      rw [div_le_one hden]; norm_num
    have hfr0 : 0 ≤ vsize va * off q / (vsize va * off q + 1e-9) := div_nonneg r0 hden.le
    rw [show sin (vsize va * off q / 2) * π / √2 * (vsize va * off q / (vsize va * off q + 1e-9)) * √2 / π
      = sin (vsize va * off q / 2) * (vsize va * off q / (vsize va * off q + 1e-9)) by field_simp]
    nlinarith [sin_le_one (vsize va * off q / 2)]
  unfold solidRay2pixel solidXyz2vxy
  rw [ray, e1, min_eq_left h1, if_pos harg]
  have hx : toSolid va ((View.new d va).xyz2vxy ((View.new d va).solidVxy2xyz q))
      = (View.new d va).solidXyz2vxy ((View.new d va).solidVxy2xyz q) := by unfold View.solidXyz2vxy; rw [e1]
  rw [hx]
  generalize (View.new d va).solidXyz2vxy ((View.new d va).solidVxy2xyz q) = x at hdiff
  have hle : rad2 (x.1 - q.1, x.2 - q.2) * res < 1 / 2 := by
    have hpi := pi_gt_three
    have hvs : vsize va * (2e6 * 180) = 2e6 * va * π := by unfold vsize; ring
    have hn := rad2_nonneg (x.1 - q.1, x.2 - q.2)
    have h8 : rad2 (x.1 - q.1, x.2 - q.2) * (2e6 * va * π) ≤ 4e-9 * (2e6 * 180) := by
      rw [← hvs]; nlinarith
    have h9 : rad2 (x.1 - q.1, x.2 - q.2) * res * 3 ≤ rad2 (x.1 - q.1, x.2 - q.2) * (2e6 * va * π) := by
      have : (res : ℝ) * 3 ≤ 2e6 * va * π := by nlinarith
      nlinarith
    norm_num at h8 h9 ⊢
    linarith
  have hsq := rad2_sq (x.1 - q.1, x.2 - q.2)
  simp only at hsq
  have hn := rad2_nonneg (x.1 - q.1, x.2 - q.2)
  have b1 : |x.1 - q.1| ≤ rad2 (x.1 - q.1, x.2 - q.2) := abs_le_of_sq_le_sq (by nlinarith [sq_nonneg (x.2 - q.2)]) hn
  have b2 : |x.2 - q.2| ≤ rad2 (x.1 - q.1, x.2 - q.2) := abs_le_of_sq_le_sq (by nlinarith [sq_nonneg (x.1 - q.1)]) hn
  have fl : ∀ (y t : ℝ) (k : ℕ), |y - t| ≤ rad2 (x.1 - q.1, x.2 - q.2) → t = ((k : ℝ) + 1 / 2) / res → ⌊y * (res : ℝ)⌋ = (k : ℤ) := by
    intro y t k hy ht
    have h3 : t * res = (k : ℝ) + 1 / 2 := by rw [ht]; field_simp
    have h4 : |y * res - t * res| < 1 / 2 := by
      rw [← sub_mul, abs_mul, abs_of_pos hr]
      nlinarith
    rw [abs_lt] at h4
    rw [Int.floor_eq_iff]
    push_cast
    constructor <;> linarith [h4.1, h4.2]
  show some (⌊x.1 * (res : ℝ)⌋, ⌊x.2 * (res : ℝ)⌋) = _
  rw [fl x.1 q.1 i b1 rfl, fl x.2 q.2 j b2 rfl]

example : ((500 : ℕ) : ℝ) ≤ 2e6 * 180 ∧
    (((100 : ℕ) : ℝ) + 1 / 2 - (500 : ℕ) / 2) ^ 2 + (((300 : ℕ) : ℝ) + 1 / 2 - (500 : ℕ) / 2) ^ 2 < (((500 : ℕ) : ℝ) / 2) ^ 2 := by
  norm_num

/-- **C147** the equisolid image of a view: the vector of every pixel whose centre is inside the circle is in that pixel. -/
theorem C147_image {a : Str} (ha : process a = .ok .vte) (d : V3) (hd : d ≠ V3.zero) (va : ℝ) (h0 : 0 < va) (h1 : va ≤ 180) (k : Kind)
    (res f : ℕ) (indices : Bool) (hdr : Str → Str) (hbig : (res : ℝ) ≤ 2e6 * va) :
    ∃ r, initImg k (View.new d va) res f indices hdr a = .ok r ∧ r.header = hdr "vte".toList ∧
      ∀ i j : ℕ, ((i : ℝ) + 1 / 2 - res / 2) ^ 2 + ((j : ℝ) + 1 / 2 - res / 2) ^ 2 < ((res : ℝ) / 2) ^ 2 →
        solidRay2pixel (View.new d va) res (r.vecs.at_ i j) = some ((i : ℤ), (j : ℤ)) := by
  refine ⟨_, init_vte ha k _ res f indices hdr, rfl, fun i j hin => ?_⟩
  have hres : 0 < res := by
    apply Nat.pos_of_ne_zero
    rintro rfl
    norm_num at hin
    nlinarith [sq_nonneg ((i : ℝ) + 1 / 2), sq_nonneg ((j : ℝ) + 1 / 2)]
  exact C147_pixel_round_trip d hd va h0 h1 res i j hres hbig hin

/-- what C147 asks of 360 degree views: every direction has a pixel -/
def C147_statement : Prop :=
  ∀ d : V3, Clear d → ∀ p : V3, p.normSq = 1 → ∀ res : ℕ, 0 < res → ∃ x, solidRay2pixel (View.new d 360) res p = some x

/-- **C147** for a 360 degree view every direction closer than 45 degrees to the direction behind gives nan -/
theorem C147_behind_partial (d : V3) (hd : Clear d) (p : V3) (hp : p.normSq = 1)
    (hback : (View.new d.neg 180).radians p ≤ π / 4) (res : ℕ) : solidRay2pixel (View.new d 360) res p = none := by
  have hpi := pi_pos
  have hneg := hd.neg
  have hrad := C53_image_radius_partial d.neg hneg 180 (by norm_num) le_rfl p hp
  have hdot : ¬ 0 < (View.new d 180).dxyz.dot p := by
    intro h
    have h2 := (inView_180 d.neg p).not.mpr (by
      have := dxyz_neg d hd.1 p
      intro h3
      linarith)
    apply h2
    unfold View.inView
    rw [(new_sf (d := d.neg) (va := 180) (by norm_num)).2.2.1, (new_sf (d := d.neg) (va := 180) (by norm_num)).2.2.2.2, cf_180]
    linarith
  have hq : (View.new d 360).xyz2vxy p = (((View.new d.neg 180).xyz2vxy p).1 + 1, ((View.new d.neg 180).xyz2vxy p).2) := by
    rw [xyz2vxy_360 d hd.1 p, if_neg ((inView_180 d p).not.mpr hdot)]
  set q := (View.new d.neg 180).xyz2vxy p with hqd
  have hr4 : (q.1 - 1 / 2) ^ 2 + (q.2 - 1 / 2) ^ 2 ≤ (1 / 4) ^ 2 := by
    rw [hrad, cf_180]
    have h0 : 0 ≤ (View.new d.neg 180).radians p := arccos_nonneg _
    apply pow_le_pow_left₀ (by positivity)
    rw [div_le_iff₀ (by positivity)]
    linarith
  have hx : 1 / 4 ≤ q.1 := by nlinarith [sq_nonneg (q.2 - 1 / 2)]
  have e2 : (View.new d 360).va = 180 := (new_sf360 (d := d)).2.2.1
  unfold solidRay2pixel solidXyz2vxy
  rw [e2, min_self, if_neg]
  · rfl
  · rw [not_le, solidArg_eq (by norm_num), hq]
    have hs : (1.41 : ℝ) ≤ √2 := by apply le_sqrt_of_sq_le; norm_num
    have ho : 3 / 4 ≤ off (q.1 + 1, q.2) := by
      unfold off
      have h5 := rad2_sq (q.1 + 1 - 1 / 2, q.2 - 1 / 2)
      simp only at h5 ⊢
      by_contra hc
      push Not at hc
      have := rad2_nonneg (q.1 + 1 - 1 / 2, q.2 - 1 / 2)
      nlinarith [sq_nonneg (q.2 - 1 / 2)]
    have e : vsize 180 * off (q.1 + 1, q.2) * √2 / π = off (q.1 + 1, q.2) * √2 := by unfold vsize; field_simp
    rw [e]
    norm_num at hs
    nlinarith

theorem C147_refuted : ¬ C147_statement := by
  intro h
  have hd := clear_example.2
  have hn : (V3.neg ⟨0, 0, 1⟩).normSq = 1 := by simp [V3.neg, V3.normSq]
  obtain ⟨x, hx⟩ := h ⟨0, 0, 1⟩ hd (V3.neg ⟨0, 0, 1⟩) hn 1 (by norm_num)
  rw [C147_behind_partial ⟨0, 0, 1⟩ hd _ hn] at hx
  · cases hx
  · have e1 : V3.neg ⟨0, 0, 1⟩ = ⟨0, 0, -1⟩ := by simp [V3.neg]
    have e2 : norm1 ⟨0, 0, -1⟩ = ⟨0, 0, -1⟩ := by
      have : V3.normSq ⟨0, 0, -1⟩ = 1 := by simp [V3.normSq]
      unfold norm1; rw [this]; simp [V3.divS]
    rw [e1]
    unfold View.radians Geo.radians
    rw [show (View.new ⟨0, 0, -1⟩ 180).dxyz = norm1 ⟨0, 0, -1⟩ from rfl, e2]
    have : ctheta ⟨0, 0, -1⟩ ⟨0, 0, -1⟩ = 1 := by simp [ctheta, clip1, V3.dot]
    rw [this, arccos_one]
    positivity

/-! ### C148 planar mappers -/

/-- a planar mapper of frame `n × m`: every row of the vectors belongs to one pixel, row major, and the mask holds every position
of the flattened image once -/
theorem C148_flat_partial (d : V3) (sf lo hi : ℝ × ℝ) (a : Option ℝ) (jr z : ℝ) (h1 : sf.1 ≠ 0) (h2 : sf.2 ≠ 0) (res n m : ℕ)
    (hf : (Planar.new d sf lo hi a jr z).framesize res = ((n : ℤ), (m : ℤ))) :
    (initPlanar (Planar.new d sf lo hi a jr z) res).1 = ((n : ℤ), (m : ℤ)) ∧
    (initPlanar (Planar.new d sf lo hi a jr z) res).2.1.length = n * m ∧
    (∀ i j : ℕ, i < n → j < m → ∃ p, (initPlanar (Planar.new d sf lo hi a jr z) res).2.1[i * m + j]? = some p ∧
      (Planar.new d sf lo hi a jr z).ray2pixel (n, m) p = ((n : ℤ) - 1 - i, (j : ℤ)) ∧
      (Planar.new d sf lo hi a jr z).inView p) ∧
    (initPlanar (Planar.new d sf lo hi a jr z) res).2.2 = List.range (n * m) := by
  unfold initPlanar
  rw [hf]
  simp only [Int.toNat_natCast]
  refine ⟨trivial, by rw [List.length_map, cells_length], ?_, ?_⟩
  · intro i j hi hj
    refine ⟨_, by rw [List.getElem?_map, cells_get hi hj]; rfl, ?_, ?_⟩
    · exact C48_mirrored_partial d sf lo _ a jr z h1 h2 n m i j hi hj
    · exact (C48_pixels_in_view d sf lo _ a jr z h1 h2 n m i j hi hj).1
  · rw [List.filter_eq_self]
    intro k hk
    rw [List.mem_range] at hk
    have hm : 0 < m := Nat.pos_of_ne_zero (by rintro rfl; simp at hk)
    simp only [decide_eq_true_eq]
    exact (C48_pixels_in_view d sf lo _ a jr z h1 h2 n m _ _ ((Nat.div_lt_iff_lt_mul hm).mpr hk) (Nat.mod_lt _ hm)).1

/-- the usage the documentation of `init_img` gives: the mask selects pixels of the image -/
def C148_statement : Prop :=
  ∀ (d : V3) (sf lo hi : ℝ × ℝ) (a : Option ℝ) (jr z : ℝ), sf.1 ≠ 0 → sf.2 ≠ 0 → ∀ (res n m : ℕ),
    (Planar.new d sf lo hi a jr z).framesize res = ((n : ℤ), (m : ℤ)) →
    ∃ l, takeRows n (initPlanar (Planar.new d sf lo hi a jr z) res).2.2 = .ok l

/-- **C148** `img[mask]` raises an IndexError for every image of at least two columns -/
theorem C148_index_partial (d : V3) (sf lo hi : ℝ × ℝ) (a : Option ℝ) (jr z : ℝ) (h1 : sf.1 ≠ 0) (h2 : sf.2 ≠ 0) (res n m : ℕ)
    (hf : (Planar.new d sf lo hi a jr z).framesize res = ((n : ℤ), (m : ℤ))) (hn : 1 ≤ n) :
    takeRows n (initPlanar (Planar.new d sf lo hi a jr z) res).2.2
      = if m ≤ 1 then .ok (List.range (n * m)) else .error .IndexError := by
  rw [(C148_flat_partial d sf lo hi a jr z h1 h2 res n m hf).2.2.2]
  unfold takeRows
  by_cases hm : m ≤ 1
  · rw [if_pos hm, if_pos]
    rw [List.all_eq_true]
    intro k hk
    rw [List.mem_range] at hk
    apply decide_eq_true
    nlinarith
  · rw [if_neg hm, if_neg]
    rw [List.all_eq_true]
    intro h
    have := h n (by rw [List.mem_range]; nlinarith)
    simp at this

theorem planar_square : (Planar.new ⟨0, 0, 1⟩ (1, 1) (0, 0) (1, 1) none 1 0).framesize 2 = (((2 : ℕ) : ℤ), ((2 : ℕ) : ℤ)) := by
  have ha : (Planar.new ⟨0, 0, 1⟩ (1, 1) (0, 0) (1, 1) none 1 0).aspect = 1 := by simp [Planar.new, aspectOf]
  unfold Planar.framesize
  rw [ha, if_neg (by norm_num)]
  have : ((2 : ℕ) : ℝ) / 1 = ((2 : ℤ) : ℝ) := by norm_num
  rw [this]
  unfold pyRound
  rw [Int.floor_intCast, sub_self, if_pos (by norm_num)]
  rfl

theorem C148_refuted : ¬ C148_statement := by
  intro h
  obtain ⟨l, hl⟩ := h ⟨0, 0, 1⟩ (1, 1) (0, 0) (1, 1) none 1 0 (by norm_num) (by norm_num) 2 2 2 planar_square
  rw [C148_index_partial ⟨0, 0, 1⟩ (1, 1) (0, 0) (1, 1) none 1 0 (by norm_num) (by norm_num) 2 2 2 planar_square (by norm_num)] at hl
  simp at hl

end Verif.Init
