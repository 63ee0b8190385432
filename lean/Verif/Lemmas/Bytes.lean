import Mathlib.Data.List.GetD
import Mathlib.Data.Nat.ModEq
import Mathlib.Tactic.Ring
import Mathlib.Tactic.Linarith
import Mathlib.Data.List.Basic
import Verif.Model.Bytes
namespace Verif.Bytes
open Verif.Py

theorem length_leBytes (k n : Nat) : (leBytes k n).length = k := by
  induction k generalizing n with
  | zero => rfl
  | succ k ih => simp [leBytes, ih]

theorem leVal_leBytes (k n : Nat) (h : n < 256 ^ k) : leVal (leBytes k n) = n := by
  induction k generalizing n with
  | zero => simp at h; simp [leBytes, leVal, h]
  | succ k ih =>
    have : n / 256 < 256 ^ k := by
      rw [Nat.div_lt_iff_lt_mul (by norm_num)]; rw [pow_succ] at h; exact h
    simp only [leBytes, leVal, ih _ this]
    omega

theorem length_encItem (d : Dtype) (n : Nat) : (encItem d n).length = d.itemsize := by
  unfold encItem; split <;> simp [length_leBytes]

theorem decItem_encItem (d : Dtype) (n : Nat) (h : n < 256 ^ d.itemsize) : decItem d (encItem d n) = n := by
  unfold decItem encItem
  split <;> simp [leVal_leBytes _ _ h]

theorem length_flatMap_enc (d : Dtype) (l : List Nat) : (l.flatMap (encItem d)).length = l.length * d.itemsize := by
  induction l with
  | nil => simp
  | cons a l ih => simp only [List.flatMap_cons, List.length_append, ih, length_encItem, List.length_cons]; ring

theorem chunks_flatMap (d : Dtype) (l : List Nat) (hl : ∀ n ∈ l, n < 256 ^ d.itemsize) :
    (chunks d.itemsize l.length (l.flatMap (encItem d))).map (decItem d) = l := by
  induction l with
  | nil => rfl
  | cons a l ih =>
    have h1 := length_encItem d a
    simp only [List.length_cons, chunks, List.flatMap_cons, List.map_cons]
    rw [List.take_left' h1, List.drop_left' h1, decItem_encItem d a (hl a (by simp)),
      ih (fun n hn => hl n (by simp [hn]))]

theorem frombuffer_enc (d : Dtype) (hd : 0 < d.itemsize) (l : List Nat) (hl : ∀ n ∈ l, n < 256 ^ d.itemsize) :
    frombuffer d (l.flatMap (encItem d)) = .ok l := by
  unfold frombuffer
  rw [length_flatMap_enc]
  simp only [Nat.mul_mod_left, if_true, Nat.mul_div_cancel _ hd]
  rw [chunks_flatMap d l hl]

theorem length_tab2 {α : Type} (h w : Nat) (f : Nat → Nat → α) : (tab2 h w f).length = h * w := by
  unfold tab2
  induction h with
  | zero => simp
  | succ h ih => rw [List.range_succ, List.flatMap_append, List.length_append, ih]; simp; ring

theorem tab2_succ {α : Type} (h w : Nat) (f : Nat → Nat → α) :
    tab2 (h+1) w f = tab2 h w f ++ (List.range w).map (f h) := by
  unfold tab2; rw [List.range_succ, List.flatMap_append]; simp

theorem at2_tab2 (h w : Nat) (f : Nat → Nat → Nat) (r c : Nat) (hr : r < h) (hc : c < w) :
    at2 w (tab2 h w f) r c = f r c := by
  induction h with
  | zero => omega
  | succ h ih =>
    unfold at2 at *
    rw [tab2_succ]
    have hl : (tab2 h w f).length = h * w := length_tab2 h w f
    by_cases hrh : r < h
    · have : r * w + c < h * w := by
        calc r * w + c < r * w + w := by omega
          _ = (r + 1) * w := by ring
          _ ≤ h * w := Nat.mul_le_mul_right _ hrh
      rw [List.getD_append _ _ _ _ (by omega), ih hrh]
    · have : r = h := by omega
      subst this
      rw [List.getD_append_right _ _ _ _ (by omega), hl]
      simp [List.getD_eq_getElem?_getD, hc]

theorem length_tab3 {α : Type} (a b c : Nat) (f : Nat → Nat → Nat → α) : (tab3 a b c f).length = a * b * c := by
  unfold tab3
  induction a with
  | zero => simp
  | succ a ih => rw [List.range_succ, List.flatMap_append, List.length_append, ih]; simp [length_tab2]; ring

theorem at3_tab3 (a b c : Nat) (f : Nat → Nat → Nat → Nat) (i j k : Nat) (hi : i < a) (hj : j < b) (hk : k < c) :
    at3 b c (tab3 a b c f) i j k = f i j k := by
  induction a with
  | zero => omega
  | succ a ih =>
    unfold at3 at *
    have hs : tab3 (a+1) b c f = tab3 a b c f ++ tab2 b c (f a) := by
      unfold tab3; rw [List.range_succ, List.flatMap_append]; simp
    rw [hs]
    have hl : (tab3 a b c f).length = a * b * c := length_tab3 a b c f
    have hjk : j * c + k < b * c := by
      calc j * c + k < j * c + c := by omega
        _ = (j + 1) * c := by ring
        _ ≤ b * c := Nat.mul_le_mul_right _ hj
    by_cases hia : i < a
    · have : (i * b + j) * c + k < a * b * c := by
        calc (i * b + j) * c + k = i * b * c + (j * c + k) := by ring
          _ < i * b * c + b * c := by omega
          _ = (i + 1) * b * c := by ring
          _ ≤ a * b * c := Nat.mul_le_mul_right _ (Nat.mul_le_mul_right _ hia)
      rw [List.getD_append _ _ _ _ (by omega), ih hia]
    · have : i = a := by omega
      subst this
      rw [List.getD_append_right _ _ _ _ (by rw [hl]; nlinarith), hl]
      have e : (i * b + j) * c + k - i * b * c = j * c + k := by
        have : (i * b + j) * c + k = i * b * c + (j * c + k) := by ring
        omega
      rw [e]
      exact at2_tab2 b c (f i) j k hj hk

theorem mem_tab2 {α : Type} (h w : Nat) (f : Nat → Nat → α) (n : α) (hn : n ∈ tab2 h w f) :
    ∃ r < h, ∃ c < w, n = f r c := by
  unfold tab2 at hn
  simp only [List.mem_flatMap, List.mem_range, List.mem_map] at hn
  obtain ⟨r, hr, c, hc, rfl⟩ := hn
  exact ⟨r, hr, c, hc, rfl⟩

theorem mem_tab3 {α : Type} (a b c : Nat) (f : Nat → Nat → Nat → α) (n : α) (hn : n ∈ tab3 a b c f) :
    ∃ i < a, ∃ j < b, ∃ k < c, n = f i j k := by
  unfold tab3 at hn
  simp only [List.mem_flatMap, List.mem_range] at hn
  obtain ⟨i, hi, h⟩ := hn
  obtain ⟨j, hj, k, hk, rfl⟩ := mem_tab2 _ _ _ _ h
  exact ⟨i, hi, j, hj, k, hk, rfl⟩

theorem resolve_nat (n : Nat) (s : List Nat) (h : size s = n) : resolveShape n (s.map (Int.ofNat ·)) = .ok s := by
  have h1 : ∀ s : List Nat, (s.map (Int.ofNat ·)).filter (fun x => decide (x < 0)) = [] := by
    intro s
    simp
  have h2 : ∀ s : List Nat, (s.map (Int.ofNat ·)).filter (fun x => decide (0 ≤ x)) = s.map (Int.ofNat ·) := by
    intro s
    simp
  have h3 : ∀ s : List Nat, (s.map (Int.ofNat ·)).map Int.toNat = s := by
    intro s; simp [List.map_map, Function.comp_def]
  unfold resolveShape
  simp only [h1, h2, h3, List.length_nil, h, if_true]

end Verif.Bytes
