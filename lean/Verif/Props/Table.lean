import Verif.Model.Table
import Verif.Spec.Decimal
import Verif.Lemmas.PyStr
import Verif.Props.Names
import Mathlib.Tactic.IntervalCases
import Mathlib.Tactic.Positivity
import Mathlib.Tactic.Positivity.Basic
import Mathlib.Algebra.Order.Field.Power

/-! C190: the printed table. -/

namespace Verif.Tab
open Verif.Py Verif.Names Verif.Spec

/-! ### rounding -/

theorem roundEven_bounds (x : ℚ) : |(roundEven x : ℚ) - x| ≤ 1 / 2 := by
  have h := Int.self_sub_floor x
  have h0 := Int.fract_nonneg x
  have h1 := Int.fract_lt_one x
  unfold roundEven
  rw [abs_le]
  split_ifs <;> push_cast <;> constructor <;> linarith

theorem roundEven_floor (x : ℚ) : ⌊x⌋ ≤ roundEven x ∧ roundEven x ≤ ⌊x⌋ + 1 := by
  unfold roundEven
  split_ifs <;> omega

theorem roundEven_mono {x y : ℚ} (h : x ≤ y) : roundEven x ≤ roundEven y := by
  have hf := Int.floor_mono h
  rcases hf.lt_or_eq with hlt | heq
  · have := (roundEven_floor x).2
    have := (roundEven_floor y).1
    omega
  · have e1 := Int.self_sub_floor x
    have e2 := Int.self_sub_floor y
    have hfr : Int.fract x ≤ Int.fract y := by
      rw [← e1, ← e2, heq]
      linarith
    unfold roundEven
    rw [← heq]
    split_ifs <;> first | omega | (exfalso; linarith)

theorem roundEven_int (n : ℤ) : roundEven (n : ℚ) = n := by
  unfold roundEven
  rw [Int.fract_intCast, if_pos (by norm_num), Int.floor_intCast]

theorem le_roundEven {n : ℤ} {x : ℚ} (h : (n : ℚ) ≤ x) : n ≤ roundEven x := by
  rw [← roundEven_int n]; exact roundEven_mono h

theorem roundEven_le {n : ℤ} {x : ℚ} (h : x ≤ (n : ℚ)) : roundEven x ≤ n := by
  rw [← roundEven_int n]; exact roundEven_mono h

theorem expo_le {x : ℚ} (hx : 0 < x) : (10 : ℚ) ^ expo x ≤ x := by
  have := Int.zpow_log_le_self (b := 10) (by norm_num) hx
  exact_mod_cast this

theorem lt_expo (x : ℚ) : x < (10 : ℚ) ^ (expo x + 1) := by
  have := Int.lt_zpow_succ_log_self (b := 10) (by norm_num) x
  exact_mod_cast this

theorem scaled {x : ℚ} (hx : 0 < x) : (100000 : ℚ) ≤ x / 10 ^ (expo x - 5) ∧ x / 10 ^ (expo x - 5) < 1000000 := by
  have hp : (0 : ℚ) < 10 ^ (expo x - 5) := by positivity
  have h1 := expo_le hx
  have h2 := lt_expo x
  constructor
  · rw [le_div_iff₀ hp]
    refine le_trans (le_of_eq ?_) h1
    rw [show (100000 : ℚ) = 10 ^ (5 : ℤ) by norm_num, ← zpow_add₀ (by norm_num)]
    congr 1; ring
  · rw [div_lt_iff₀ hp]
    refine lt_of_lt_of_le h2 (le_of_eq ?_)
    rw [show (1000000 : ℚ) = 10 ^ (6 : ℤ) by norm_num, ← zpow_add₀ (by norm_num)]
    congr 1; ring

theorem mant_cast {x : ℚ} (hx : 0 < x) : ((mant x : ℕ) : ℤ) = roundEven (x / 10 ^ (expo x - 5)) ∧ 100000 ≤ mant x ∧ mant x ≤ 1000000 := by
  obtain ⟨h1, h2⟩ := scaled hx
  have a := le_roundEven (n := 100000) (by exact_mod_cast h1)
  have b := roundEven_le (n := 1000000) (by exact_mod_cast h2.le)
  unfold mant
  omega

/-- the value shown for a positive number -/
def shown (x : ℚ) : ℚ := (mant x : ℚ) * 10 ^ (expo x - 5)

theorem sig_shown {x : ℚ} (hx : 0 < x) : ((sig x).1 : ℚ) * 10 ^ ((sig x).2 - 5) = shown x ∧ 100000 ≤ (sig x).1 ∧ (sig x).1 < 1000000 := by
  obtain ⟨-, h1, h2⟩ := mant_cast hx
  unfold sig shown
  split_ifs with h
  · refine ⟨?_, by norm_num, by norm_num⟩
    simp only [h]
    rw [show expo x + 1 - 5 = (expo x - 5) + 1 by ring, zpow_add₀ (by norm_num)]
    push_cast
    ring
  · exact ⟨rfl, h1, by omega⟩

theorem shown_error {x : ℚ} (hx : 0 < x) : |shown x - x| ≤ 5 / 1000000 * x := by
  have hp : (0 : ℚ) < 10 ^ (expo x - 5) := by positivity
  have h := roundEven_bounds (x / 10 ^ (expo x - 5))
  have hm : ((mant x : ℕ) : ℚ) = (roundEven (x / 10 ^ (expo x - 5)) : ℚ) := by exact_mod_cast congrArg (Int.cast (R := ℚ)) (mant_cast hx).1
  have hs := (scaled hx).1
  rw [le_div_iff₀ hp] at hs
  have e : shown x - x = ((roundEven (x / 10 ^ (expo x - 5)) : ℚ) - x / 10 ^ (expo x - 5)) * 10 ^ (expo x - 5) := by
    unfold shown
    rw [hm, sub_mul, div_mul_cancel₀ _ hp.ne']
  rw [e, abs_mul, abs_of_pos hp]
  nlinarith

theorem shown_pos {x : ℚ} (hx : 0 < x) : 0 < shown x := by
  have := (mant_cast hx).2.1
  unfold shown
  have : (0 : ℚ) < (mant x : ℚ) := by exact_mod_cast (by omega : 0 < mant x)
  positivity

theorem shown_mono {x y : ℚ} (hx : 0 < x) (h : x ≤ y) : shown x ≤ shown y := by
  have hy := lt_of_lt_of_le hx h
  have he : expo x ≤ expo y := by
    have : (10 : ℚ) ^ expo x < 10 ^ (expo y + 1) := lt_of_le_of_lt (expo_le hx) (lt_of_le_of_lt h (lt_expo y))
    have := (zpow_lt_zpow_iff_right₀ (by norm_num : (1 : ℚ) < 10)).1 this
    omega
  rcases he.lt_or_eq with hlt | heq
  · have hm := (mant_cast hx).2.2
    have hm' := (mant_cast hy).2.1
    have a : shown x ≤ 10 ^ (expo x + 1) := by
      unfold shown
      rw [show (10 : ℚ) ^ (expo x + 1) = 1000000 * 10 ^ (expo x - 5) by
        rw [show (1000000 : ℚ) = 10 ^ (6 : ℤ) by norm_num, ← zpow_add₀ (by norm_num)]; congr 1; ring]
      exact mul_le_mul_of_nonneg_right (by exact_mod_cast hm) (by positivity)
    have b : (10 : ℚ) ^ expo y ≤ shown y := by
      unfold shown
      rw [show (10 : ℚ) ^ expo y = 100000 * 10 ^ (expo y - 5) by
        rw [show (100000 : ℚ) = 10 ^ (5 : ℤ) by norm_num, ← zpow_add₀ (by norm_num)]; congr 1; ring]
      exact mul_le_mul_of_nonneg_right (by exact_mod_cast hm') (by positivity)
    exact a.trans ((zpow_le_zpow_right₀ (by norm_num) (by omega)).trans b)
  · unfold shown mant
    rw [heq]
    refine mul_le_mul_of_nonneg_right ?_ (by positivity)
    have : roundEven (x / 10 ^ (expo y - 5)) ≤ roundEven (y / 10 ^ (expo y - 5)) :=
      roundEven_mono (div_le_div_of_nonneg_right h (by positivity))
    exact_mod_cast Int.toNat_le_toNat this

/-- numbers of up to six significant digits are shown exactly -/
theorem shown_exact {x : ℚ} (hx : 0 < x) (m : ℕ) (k : ℤ) (hm : m < 1000000) (h : x = m * 10 ^ k) : shown x = x := by
  have hp : (0 : ℚ) < 10 ^ (expo x - 5) := by positivity
  have hk : expo x ≤ k + 5 := by
    have h1 : (10 : ℚ) ^ expo x < 10 ^ (k + 6) := by
      refine lt_of_le_of_lt (expo_le hx) ?_
      rw [h, show (10 : ℚ) ^ (k + 6) = 1000000 * 10 ^ k by
        rw [show (1000000 : ℚ) = 10 ^ (6 : ℤ) by norm_num, ← zpow_add₀ (by norm_num)]; congr 1; ring]
      exact mul_lt_mul_of_pos_right (by exact_mod_cast hm) (by positivity)
    have := (zpow_lt_zpow_iff_right₀ (by norm_num : (1 : ℚ) < 10)).1 h1
    omega
  obtain ⟨t, ht⟩ : ∃ t : ℕ, (t : ℤ) = k + 5 - expo x := ⟨(k + 5 - expo x).toNat, by omega⟩
  have e : x / 10 ^ (expo x - 5) = ((m * 10 ^ t : ℕ) : ℤ) := by
    rw [div_eq_iff hp.ne', Int.cast_natCast]
    conv_lhs => rw [h]
    push_cast
    rw [mul_assoc, ← zpow_natCast, ← zpow_add₀ (by norm_num), ht]
    congr 2; ring
  have hm' := (mant_cast hx).1
  rw [e, roundEven_int] at hm'
  have : (mant x : ℚ) = x / 10 ^ (expo x - 5) := by
    rw [e]
    exact_mod_cast congrArg (Int.cast (R := ℚ)) hm'
  unfold shown
  rw [this, div_mul_cancel₀ _ hp.ne']

/-! ### reading digits -/

theorem digit_isDigit {k : ℕ} (h : k < 10) : (digit k).isDigit = true := by
  interval_cases k <;> decide

theorem digit_val {k : ℕ} (h : k < 10) : (digit k).toNat - 48 = k := by
  interval_cases k <;> decide

/-- the number a row of digits stands for -/
def valOf (l : List ℕ) : ℕ := l.foldl (fun a d => 10 * a + d) 0

theorem foldl_append_val (l : List ℕ) (a : ℕ) : l.foldl (fun a d => 10 * a + d) a = a * 10 ^ l.length + valOf l := by
  induction l generalizing a with
  | nil => simp [valOf]
  | cons d l ih =>
    unfold valOf
    rw [List.foldl_cons, List.foldl_cons, ih, ih (10 * 0 + d), List.length_cons, pow_succ]
    ring

theorem valOf_append (a b : List ℕ) : valOf (a ++ b) = valOf a * 10 ^ b.length + valOf b := by
  unfold valOf
  rw [List.foldl_append, foldl_append_val]
  rfl

theorem readNat_digits {l : List ℕ} (h : ∀ d ∈ l, d < 10) : readNat (l.map digit) = valOf l := by
  unfold readNat valOf
  rw [List.foldl_map]
  have : ∀ a, l.foldl (fun a d => 10 * a + ((digit d).toNat - 48)) a = l.foldl (fun a d => 10 * a + d) a := by
    induction l with
    | nil => intro a; rfl
    | cons d l ih =>
      intro a
      rw [List.foldl_cons, List.foldl_cons, digit_val (h d (by simp)), ih (fun x hx => h x (by simp [hx]))]
  exact this 0

theorem trim_spec (l : List ℕ) : ∃ k, l = trim l ++ List.replicate k 0 := by
  refine ⟨(l.reverse.takeWhile (· = 0)).length, ?_⟩
  have h := List.takeWhile_append_dropWhile (p := fun d : ℕ => decide (d = 0)) (l := l.reverse)
  have hz : l.reverse.takeWhile (fun d : ℕ => decide (d = 0)) = List.replicate (l.reverse.takeWhile (fun d : ℕ => decide (d = 0))).length 0 := by
    refine List.eq_replicate_iff.2 ⟨rfl, fun b hb => ?_⟩
    have := List.all_takeWhile (p := fun d : ℕ => decide (d = 0)) (l := l.reverse)
    simpa using List.all_eq_true.1 this b hb
  have := congrArg List.reverse h
  rw [List.reverse_append, List.reverse_reverse] at this
  unfold trim
  rw [hz, List.reverse_replicate] at this
  exact this.symm

theorem valOf_zeros (k : ℕ) : valOf (List.replicate k 0) = 0 := by
  induction k with
  | zero => rfl
  | succ k ih =>
    rw [List.replicate_succ, show (0 :: List.replicate k 0 : List ℕ) = [0] ++ List.replicate k 0 from rfl, valOf_append, ih]
    simp [valOf]

theorem trim_val (l : List ℕ) : (valOf (trim l) : ℚ) / 10 ^ (trim l).length = (valOf l : ℚ) / 10 ^ l.length := by
  obtain ⟨k, h⟩ := trim_spec l
  conv_rhs => rw [h]
  rw [valOf_append, valOf_zeros, List.length_append, List.length_replicate, pow_add]
  push_cast
  rw [add_zero, mul_div_mul_right _ _ (by positivity)]

theorem takeWhile_digits {a r : List Char} (ha : ∀ c ∈ a, c.isDigit = true) (hr : ∀ c t, r = c :: t → c.isDigit = false) :
    (a ++ r).takeWhile Char.isDigit = a ∧ (a ++ r).dropWhile Char.isDigit = r := by
  induction a with
  | nil =>
    cases r with
    | nil => exact ⟨rfl, rfl⟩
    | cons c t =>
      have := hr c t rfl
      simp [List.takeWhile, List.dropWhile, this]
  | cons c a ih =>
    have hc := ha c (by simp)
    obtain ⟨h1, h2⟩ := ih fun x hx => ha x (by simp [hx])
    simp [List.takeWhile, List.dropWhile, hc, h1, h2]

/-- reading back: digits, point, digits and an exponent -/
theorem read_pointed (ip fp : List ℕ) (hip : ∀ d ∈ ip, d < 10) (hfp : ∀ d ∈ fp, d < 10) (hne : ip ≠ []) (r : List Char) (e : ℤ)
    (hr : readExp r = some e) (hd : ∀ c t, r = c :: t → c.isDigit = false ∧ c ≠ '.') :
    readAbs (pointed ip fp ++ r) = some ((valOf (ip ++ fp) : ℚ) / 10 ^ fp.length * 10 ^ e) := by
  have hdig : ∀ (l : List ℕ), (∀ d ∈ l, d < 10) → ∀ c ∈ l.map digit, c.isDigit = true := by
    intro l hl c hc
    obtain ⟨d, hd', rfl⟩ := List.mem_map.1 hc
    exact digit_isDigit (hl d hd')
  have htr : ∀ d ∈ trim fp, d < 10 := by
    obtain ⟨k, h⟩ := trim_spec fp
    intro d hd'
    exact hfp d (by rw [h]; simp [hd'])
  have hval : (valOf (ip ++ fp) : ℚ) / 10 ^ fp.length = (valOf ip : ℚ) + (valOf (trim fp) : ℚ) / 10 ^ (trim fp).length := by
    rw [trim_val, valOf_append]
    push_cast
    field_simp
  unfold pointed
  by_cases ht : trim fp = []
  · rw [if_pos ht, List.append_nil]
    obtain ⟨h1, h2⟩ := takeWhile_digits (hdig ip hip) (r := r) (fun c t h => (hd c t h).1)
    unfold readAbs
    rw [h1, h2, if_neg (by simpa using hne), hval, ht]
    have : readFrac (ip.map digit) r = (readExp r).map fun e => (readNat (ip.map digit) : ℚ) * 10 ^ e := by
      cases r with
      | nil => rfl
      | cons c t =>
        have := (hd c t rfl).2
        unfold readFrac
        split
        · rename_i heq
          injection heq with h _
          exact absurd h this
        · rfl
    rw [this, hr, readNat_digits hip]
    simp [valOf]
  · rw [if_neg ht]
    have hsplit : ip.map digit ++ '.' :: (trim fp).map digit ++ r = ip.map digit ++ ('.' :: ((trim fp).map digit ++ r)) := by simp
    rw [hsplit]
    obtain ⟨h1, h2⟩ := takeWhile_digits (hdig ip hip) (r := '.' :: ((trim fp).map digit ++ r)) (fun c t h => by
      injection h with h _
      subst h
      decide)
    obtain ⟨h3, h4⟩ := takeWhile_digits (hdig (trim fp) htr) (r := r) (fun c t h => (hd c t h).1)
    unfold readAbs
    rw [h1, h2, if_neg (by simpa using hne)]
    unfold readFrac
    simp only
    rw [h3, h4, if_neg (by simpa using ht), hr, readNat_digits hip, readNat_digits htr, List.length_map, hval]
    rfl

theorem six_lt (m : ℕ) : ∀ d ∈ six m, d < 10 := by
  intro d hd
  simp only [six, List.mem_cons, List.not_mem_nil, or_false] at hd
  rcases hd with rfl | rfl | rfl | rfl | rfl | rfl <;> exact Nat.mod_lt _ (by norm_num)

theorem valOf_six {m : ℕ} (h : m < 1000000) : valOf (six m) = m := by
  simp only [valOf, six, List.foldl_cons, List.foldl_nil]
  omega

theorem dec_readNat (n : ℕ) : dec n ≠ [] ∧ (∀ c ∈ dec n, c.isDigit = true) ∧ readNat (dec n) = n := by
  have key : ∀ f n : ℕ, n < f → decGo f n ≠ [] ∧ (∀ c ∈ decGo f n, c.isDigit = true) ∧ readNat (decGo f n) = n := by
    intro f
    induction f with
    | zero => intro n h; omega
    | succ f ih =>
      intro n h
      unfold decGo
      split_ifs with h10
      · refine ⟨by simp, fun c hc => ?_, ?_⟩
        · simp only [List.mem_singleton] at hc
          subst hc
          exact digit_isDigit h10
        · simp only [readNat, List.foldl_cons, List.foldl_nil]
          rw [digit_val h10]; omega
      · obtain ⟨a, b, c⟩ := ih (n / 10) (by omega)
        refine ⟨by simp, fun x hx => ?_, ?_⟩
        · rcases List.mem_append.1 hx with hx | hx
          · exact b x hx
          · simp only [List.mem_singleton] at hx
            subst hx
            exact digit_isDigit (Nat.mod_lt _ (by norm_num))
        · unfold readNat at c ⊢
          rw [List.foldl_append, c]
          simp only [List.foldl_cons, List.foldl_nil]
          rw [digit_val (Nat.mod_lt _ (by norm_num))]
          omega
  exact key (n + 1) n (Nat.lt_succ_self n)

theorem expText_read (e : ℤ) : readExp (expText e) = some e := by
  obtain ⟨h1, h2, h3⟩ := dec_readNat e.natAbs
  have hall : (dec e.natAbs).all Char.isDigit = true := List.all_eq_true.2 h2
  have hz : readNat ('0' :: dec e.natAbs) = e.natAbs := by
    refine Eq.trans ?_ h3
    rfl
  unfold expText
  split_ifs with hneg h10 h10
  · show (if ('0' :: dec e.natAbs) ≠ [] ∧ ('0' :: dec e.natAbs).all Char.isDigit then some (-(readNat ('0' :: dec e.natAbs) : ℤ)) else none) = _
    rw [if_pos ⟨by simp, by rw [List.all_cons, hall]; decide⟩, hz]
    congr 1; omega
  · show (if dec e.natAbs ≠ [] ∧ (dec e.natAbs).all Char.isDigit then some (-(readNat (dec e.natAbs) : ℤ)) else none) = _
    rw [if_pos ⟨h1, hall⟩, h3]
    congr 1; omega
  · show (if ('0' :: dec e.natAbs) ≠ [] ∧ ('0' :: dec e.natAbs).all Char.isDigit then some ((readNat ('0' :: dec e.natAbs) : ℕ) : ℤ) else none) = _
    rw [if_pos ⟨by simp, by rw [List.all_cons, hall]; decide⟩, hz]
    congr 1; omega
  · show (if dec e.natAbs ≠ [] ∧ (dec e.natAbs).all Char.isDigit then some ((readNat (dec e.natAbs) : ℕ) : ℤ) else none) = _
    rw [if_pos ⟨h1, hall⟩, h3]
    congr 1; omega

theorem gText_read {m : ℕ} (h : m < 1000000) (e : ℤ) : readAbs (gText m e) = some ((m : ℚ) * 10 ^ (e - 5)) := by
  have h10 : (10 : ℚ) ≠ 0 := by norm_num
  have key : ∀ (k : ℕ) (f : ℤ), f - (k : ℤ) = e - 5 → (m : ℚ) / 10 ^ k * 10 ^ f = (m : ℚ) * 10 ^ (e - 5) := by
    intro k f hk
    rw [← hk, zpow_sub₀ h10, zpow_natCast]
    ring
  unfold gText
  split_ifs with hr h0
  · have hlt : e.toNat < 6 := by omega
    have := read_pointed ((six m).take (e.toNat + 1)) ((six m).drop (e.toNat + 1)) (fun d hd => six_lt m d (List.mem_of_mem_take hd))
      (fun d hd => six_lt m d (List.mem_of_mem_drop hd)) (by simp [six]) [] 0 rfl (by simp)
    rw [List.append_nil] at this
    rw [this, List.take_append_drop, valOf_six h, key _ 0]
    rw [List.length_drop]
    simp only [six, List.length_cons, List.length_nil]
    omega
  · have := read_pointed [0] (List.replicate (-e - 1).toNat 0 ++ six m) (by simp) (fun d hd => by
      rcases List.mem_append.1 hd with hd | hd
      · rw [List.eq_of_mem_replicate hd]; norm_num
      · exact six_lt m d hd) (by simp) [] 0 rfl (by simp)
    rw [List.append_nil] at this
    rw [this, valOf_append, valOf_append, valOf_zeros, valOf_six h]
    simp only [valOf, List.foldl_cons, List.foldl_nil, mul_zero, add_zero, zero_mul, zero_add]
    rw [key _ 0]
    rw [List.length_append, List.length_replicate]
    simp only [six, List.length_cons, List.length_nil]
    omega
  · have := read_pointed ((six m).take 1) ((six m).drop 1) (fun d hd => six_lt m d (List.mem_of_mem_take hd))
      (fun d hd => six_lt m d (List.mem_of_mem_drop hd)) (by simp [six]) (expText e) e (expText_read e) (by
        intro c t hc
        unfold expText at hc
        injection hc with hc _
        subst hc
        decide)
    rw [this, List.take_append_drop, valOf_six h, key _ e]
    simp [six]

theorem gText_head (m : ℕ) (e : ℤ) : ∃ c t, gText m e = c :: t ∧ c ≠ '-' := by
  have hd : ∀ k : ℕ, k < 10 → digit k ≠ '-' := by
    intro k hk
    interval_cases k <;> decide
  unfold gText pointed
  split_ifs with hr h0 <;> first
    | exact ⟨digit (m / 100000 % 10), _, rfl, hd _ (Nat.mod_lt _ (by norm_num))⟩
    | exact ⟨digit 0, _, rfl, hd _ (by norm_num)⟩

/-- **C190** every number of the table reads back to within five millionths of itself, with its sign -/
theorem C190_digits (x : ℚ) (hx : x ≠ 0) : ∃ v, readNum (cell (.fin x)) = some v ∧ |v - x| ≤ 5 / 1000000 * |x| ∧ 0 < v * x := by
  rcases lt_or_gt_of_ne hx with hneg | hpos
  · have hp : 0 < -x := by linarith
    obtain ⟨e1, e2, e3⟩ := sig_shown hp
    refine ⟨-shown (-x), ?_, ?_, ?_⟩
    · show readNum (if x < 0 then '-' :: gText (sig (-x)).1 (sig (-x)).2 else gText (sig x).1 (sig x).2) = _
      rw [if_pos hneg]
      show (readAbs _).map _ = _
      rw [gText_read e3, e1]
      rfl
    · rw [show -shown (-x) - x = -(shown (-x) - -x) by ring, abs_neg, abs_of_neg hneg]
      exact shown_error hp
    · have := mul_pos (shown_pos hp) hp
      linarith
  · obtain ⟨e1, e2, e3⟩ := sig_shown hpos
    refine ⟨shown x, ?_, ?_, mul_pos (shown_pos hpos) hpos⟩
    · show readNum (if x < 0 then '-' :: gText (sig (-x)).1 (sig (-x)).2 else gText (sig x).1 (sig x).2) = _
      rw [if_neg (by linarith)]
      obtain ⟨c, t, hc, hne⟩ := gText_head (sig x).1 (sig x).2
      have : readNum (gText (sig x).1 (sig x).2) = readAbs (gText (sig x).1 (sig x).2) := by
        rw [hc]
        unfold readNum
        split
        · rename_i heq
          injection heq with h _
          exact absurd h hne
        · rfl
      rw [this, gText_read e3, e1]
    · rw [abs_of_pos hpos]
      exact shown_error hpos

theorem cell_value {x : ℚ} (hx : x ≠ 0) : readNum (cell (.fin x)) = some (if x < 0 then -shown (-x) else shown x) := by
  by_cases hneg : x < 0
  · have hp : 0 < -x := by linarith
    obtain ⟨e1, -, e3⟩ := sig_shown hp
    show readNum (if x < 0 then '-' :: gText (sig (-x)).1 (sig (-x)).2 else gText (sig x).1 (sig x).2) = _
    rw [if_pos hneg, if_pos hneg]
    show (readAbs _).map _ = _
    rw [gText_read e3, e1]
    rfl
  · have hpos : 0 < x := lt_of_le_of_ne (not_lt.1 hneg) (Ne.symm hx)
    obtain ⟨e1, -, e3⟩ := sig_shown hpos
    show readNum (if x < 0 then '-' :: gText (sig (-x)).1 (sig (-x)).2 else gText (sig x).1 (sig x).2) = _
    rw [if_neg hneg, if_neg hneg]
    obtain ⟨c, t, hc, hne⟩ := gText_head (sig x).1 (sig x).2
    have : readNum (gText (sig x).1 (sig x).2) = readAbs (gText (sig x).1 (sig x).2) := by
      rw [hc]
      unfold readNum
      split
      · rename_i heq
        injection heq with h _
        exact absurd h hne
      · rfl
    rw [this, gText_read e3, e1]

/-- **C190** the order of two results is the order of their printed numbers, up to numbers printed alike -/
theorem C190_order (x y : ℚ) (hx : x ≠ 0) (hy : y ≠ 0) (h : x ≤ y) :
    ∃ v w, readNum (cell (.fin x)) = some v ∧ readNum (cell (.fin y)) = some w ∧ v ≤ w := by
  refine ⟨_, _, cell_value hx, cell_value hy, ?_⟩
  split_ifs with h1 h2 h2
  · have := shown_mono (x := -y) (y := -x) (by linarith) (by linarith)
    linarith
  · have a := shown_pos (x := -x) (by linarith)
    have b := shown_pos (lt_of_le_of_ne (not_lt.1 h2) (Ne.symm hy))
    linarith
  · exact absurd (lt_of_le_of_lt h h2) h1
  · exact shown_mono (lt_of_le_of_ne (not_lt.1 h1) (Ne.symm hx)) h

/-- **C190** a result of at most six significant digits is printed exactly -/
theorem C190_exact (m k : ℤ) (hm : m ≠ 0) (h6 : |m| < 1000000) :
    readNum (cell (.fin ((m : ℚ) * 10 ^ k))) = some ((m : ℚ) * 10 ^ k) := by
  have hp : (0 : ℚ) < 10 ^ k := by positivity
  have hm' : (m : ℚ) ≠ 0 := by exact_mod_cast hm
  rw [cell_value (mul_ne_zero hm' hp.ne')]
  congr 1
  rw [abs_lt] at h6
  split_ifs with h
  · have hneg : m < 0 := by
      by_contra hc
      have : (0 : ℚ) ≤ m := by exact_mod_cast not_lt.1 hc
      have := mul_nonneg this hp.le
      linarith
    rw [shown_exact (by linarith) (-m).toNat k (by omega) ?_, neg_neg]
    have : (((-m).toNat : ℕ) : ℤ) = -m := by omega
    have h2 : (((-m).toNat : ℕ) : ℚ) = -(m : ℚ) := by exact_mod_cast congrArg (Int.cast (R := ℚ)) this
    rw [h2]; ring
  · have hpos : 0 < m := by
      by_contra hc
      have : (m : ℚ) < 0 := by exact_mod_cast lt_of_le_of_ne (not_lt.1 hc) hm
      exact h (mul_neg_of_neg_of_pos this hp)
    have hq : (0 : ℚ) < m := by exact_mod_cast hpos
    refine shown_exact (mul_pos hq hp) m.toNat k (by omega) ?_
    have : ((m.toNat : ℕ) : ℤ) = m := by omega
    have h2 : ((m.toNat : ℕ) : ℚ) = (m : ℚ) := by exact_mod_cast congrArg (Int.cast (R := ℚ)) this
    rw [h2]

/-- **C190** zero reads back as zero; infinities and nan are not numbers in decimal notation and are told apart -/
theorem C190_special : (∀ b, readNum (cell (.zero b)) = some 0) ∧ (∀ b, readNum (cell (.inf b)) = none) ∧ readNum (cell .nan) = none ∧
    cell (.inf true) ≠ cell (.inf false) ∧ (∀ b, cell (.inf b) ≠ cell .nan) := by
  refine ⟨fun b => ?_, fun b => ?_, by decide, by decide, fun b => ?_⟩
  · cases b <;> simp [cell, readNum, readAbs, readFrac, readExp, readNat, List.takeWhile, List.dropWhile]
  · cases b <;> simp [cell, readNum, readAbs, List.takeWhile]
  · cases b <;> decide

/-! ### rows and lines -/

/-- letters, digits, signs and the point -/
def plain (c : Char) : Prop := c.isDigit = true ∨ c = '.' ∨ c = 'e' ∨ c = '+' ∨ c = '-' ∨ c = 'i' ∨ c = 'n' ∨ c = 'f' ∨ c = 'a'

theorem plain_map {l : List ℕ} (h : ∀ d ∈ l, d < 10) : ∀ c ∈ l.map digit, plain c := by
  intro c hc
  obtain ⟨d, hd, rfl⟩ := List.mem_map.1 hc
  exact Or.inl (digit_isDigit (h d hd))

theorem pointed_plain {ip fp : List ℕ} (hip : ∀ d ∈ ip, d < 10) (hfp : ∀ d ∈ fp, d < 10) : ∀ c ∈ pointed ip fp, plain c := by
  intro c hc
  unfold pointed at hc
  rcases List.mem_append.1 hc with hc | hc
  · exact plain_map hip c hc
  · split_ifs at hc with ht
    · exact absurd hc (by simp)
    · rcases List.mem_cons.1 hc with rfl | hc
      · exact Or.inr (Or.inl rfl)
      · refine plain_map (fun d hd => ?_) c hc
        obtain ⟨k, h⟩ := trim_spec fp
        exact hfp d (by rw [h]; simp [hd])

theorem expText_plain (e : ℤ) : ∀ c ∈ expText e, plain c := by
  intro c hc
  have hdg := (dec_readNat e.natAbs).2.1
  unfold expText at hc
  rcases List.mem_cons.1 hc with rfl | hc
  · exact Or.inr (Or.inr (Or.inl rfl))
  · rcases List.mem_cons.1 hc with hc | hc
    · subst hc
      split_ifs
      · exact Or.inr (Or.inr (Or.inr (Or.inr (Or.inl rfl))))
      · exact Or.inr (Or.inr (Or.inr (Or.inl rfl)))
    · split_ifs at hc
      · rcases List.mem_cons.1 hc with rfl | hc
        · exact Or.inl (by decide)
        · exact Or.inl (hdg c hc)
      · exact Or.inl (hdg c hc)

theorem gText_plain (m : ℕ) (e : ℤ) : ∀ c ∈ gText m e, plain c := by
  have ht : ∀ k, ∀ d ∈ (six m).take k, d < 10 := fun k d hd => six_lt m d (List.mem_of_mem_take hd)
  have hdr : ∀ k, ∀ d ∈ (six m).drop k, d < 10 := fun k d hd => six_lt m d (List.mem_of_mem_drop hd)
  intro c hc
  unfold gText at hc
  split_ifs at hc
  · exact pointed_plain (ht _) (hdr _) c hc
  · refine pointed_plain (by simp) (fun d hd => ?_) c hc
    rcases List.mem_append.1 hd with hd | hd
    · rw [List.eq_of_mem_replicate hd]; norm_num
    · exact six_lt m d hd
  · rcases List.mem_append.1 hc with hc | hc
    · exact pointed_plain (ht _) (hdr _) c hc
    · exact expText_plain e c hc

theorem cell_plain (v : Val) : ∀ c ∈ cell v, plain c := by
  intro c hc
  cases v with
  | fin x =>
    unfold cell at hc
    simp only at hc
    split_ifs at hc
    · rcases List.mem_cons.1 hc with rfl | hc
      · exact Or.inr (Or.inr (Or.inr (Or.inr (Or.inl rfl))))
      · exact gText_plain _ _ c hc
    · exact gText_plain _ _ c hc
  | zero b => cases b <;> simp [cell] at hc <;> rcases hc with rfl | rfl <;> simp [plain]
  | inf b => cases b <;> simp [cell] at hc <;> rcases hc with rfl | rfl | rfl | rfl <;> simp [plain]
  | nan => simp [cell] at hc; rcases hc with rfl | rfl | rfl <;> simp [plain]

theorem plain_sep {c : Char} (h : plain c) : c ≠ '\t' ∧ c ≠ '\n' := by
  rcases h with h | h | h | h | h | h | h | h | h
  · constructor <;> (rintro rfl; exact absurd h (by decide))
  all_goals subst h; decide

theorem joinWith_mem {sep : Char} {l : List Str} {c : Char} (h : c ∈ joinWith sep l) : c = sep ∨ ∃ p ∈ l, c ∈ p := by
  induction l with
  | nil => exact absurd h (by simp [joinWith])
  | cons p l ih =>
    cases l with
    | nil => exact Or.inr ⟨p, by simp, h⟩
    | cons q l =>
      rcases List.mem_append.1 (show c ∈ p ++ sep :: joinWith sep (q :: l) from h) with h | h
      · exact Or.inr ⟨p, by simp, h⟩
      · rcases List.mem_cons.1 h with h | h
        · exact Or.inl h
        · rcases ih h with h | ⟨r, hr, hc⟩
          · exact Or.inl h
          · exact Or.inr ⟨r, by simp [hr], hc⟩

/-- the table as a reader takes it apart: lines, and cells between tabs; the last line is empty -/
def readTable (s : Str) : List (List Str) := ((splitOn '\n' s).dropLast).map (splitOn '\t')

/-- **C190** the whole claim: whatever the images are called, the table can be taken apart again -/
def C190_statement : Prop := ∀ (names : List Str) (rows : List (Str × List Val)), names ≠ [] → (∀ n ∈ names, '\t' ∉ n ∧ '\n' ∉ n) →
  (∀ r ∈ rows, r.2.length = names.length) →
  readTable (tableText names rows) = ("image".toList :: names) :: rows.map fun r => r.1 :: r.2.map cell

theorem rowText_split {img : Str} {vals : List Val} (hi : '\t' ∉ img) (hv : vals ≠ []) : splitOn '\t' (rowText img vals) = img :: vals.map cell := by
  unfold rowText
  rw [splitOn_append _ _ _ hi, splitOn_joinWith _ _ (by simpa using hv)]
  intro p hp hc
  obtain ⟨v, -, rfl⟩ := List.mem_map.1 hp
  exact (plain_sep (cell_plain v _ hc)).1 rfl

theorem rowText_line {img : Str} {vals : List Val} (hi : '\n' ∉ img) : '\n' ∉ rowText img vals := by
  intro hc
  unfold rowText at hc
  rcases List.mem_append.1 hc with hc | hc
  · exact hi hc
  · rcases List.mem_cons.1 hc with hc | hc
    · exact absurd hc (by decide)
    · rcases joinWith_mem hc with hc | ⟨p, hp, hc⟩
      · exact absurd hc (by decide)
      · obtain ⟨v, -, rfl⟩ := List.mem_map.1 hp
        exact (plain_sep (cell_plain v _ hc)).2 rfl

theorem lines_split (rows : List (Str × List Val)) (h : ∀ r ∈ rows, '\n' ∉ r.1) :
    splitOn '\n' (rows.flatMap fun r => rowText r.1 r.2 ++ ['\n']) = rows.map (fun r => rowText r.1 r.2) ++ [[]] := by
  induction rows with
  | nil => rfl
  | cons r rows ih =>
    rw [List.flatMap_cons, List.append_assoc, List.singleton_append, splitOn_append _ _ _ (rowText_line (h r (by simp))),
      ih fun q hq => h q (by simp [hq])]
    rfl

/-- **C190** for image names without tabs and newlines the table is taken apart into the names and the cells, one line per image in order -/
theorem C190_table_partial (names : List Str) (rows : List (Str × List Val)) (hn : names ≠ []) (hnames : ∀ n ∈ names, '\t' ∉ n ∧ '\n' ∉ n)
    (hne : ∀ r ∈ rows, r.2 ≠ []) (hrows : ∀ r ∈ rows, '\t' ∉ r.1 ∧ '\n' ∉ r.1) :
    readTable (tableText names rows) = ("image".toList :: names) :: rows.map fun r => r.1 :: r.2.map cell := by
  have hh : '\n' ∉ headText names := by
    intro hc
    unfold headText at hc
    rcases List.mem_append.1 hc with hc | hc
    · exact absurd hc (by decide)
    · rcases List.mem_cons.1 hc with hc | hc
      · exact absurd hc (by decide)
      · rcases joinWith_mem hc with hc | ⟨p, hp, hc⟩
        · exact absurd hc (by decide)
        · exact (hnames p hp).2 hc
  unfold readTable tableText
  rw [splitOn_append _ _ _ hh, lines_split rows fun r hr => (hrows r hr).2, ← List.cons_append, List.dropLast_concat, List.map_cons,
    List.map_map]
  congr 1
  · unfold headText
    rw [splitOn_append _ _ _ (by decide), splitOn_joinWith _ _ hn fun p hp => (hnames p hp).1]
  · refine List.map_congr_left fun r hr => rowText_split (hrows r hr).1 (hne r hr)

/-- **C190** an image whose name holds a tab shifts its results by one column -/
theorem C190_refuted : ¬ C190_statement := by
  intro h
  have := h [['a']] [(['x', '\t', 'y'], [.zero false])] (by simp) (by simp) (by simp)
  revert this
  decide

/-- the hypotheses are met: 1234567 is printed as 1.23457e+06 -/
example : cell (.fin 1234567) = "1.23457e+06".toList := by
  have e : expo 1234567 = 6 := by
    have h1 := expo_le (x := 1234567) (by norm_num)
    have h2 := lt_expo 1234567
    have a : expo 1234567 < 7 := (zpow_lt_zpow_iff_right₀ (by norm_num : (1 : ℚ) < 10)).1 (lt_of_le_of_lt h1 (by norm_num))
    have b : 6 < expo 1234567 + 1 := (zpow_lt_zpow_iff_right₀ (by norm_num : (1 : ℚ) < 10)).1 (lt_of_le_of_lt (by norm_num) h2)
    omega
  have m : mant 1234567 = 123457 := by
    unfold mant
    rw [e]
    unfold roundEven
    have hf : ⌊(1234567 : ℚ) / 10 ^ ((6 : ℤ) - 5)⌋ = 123456 := by
      rw [Int.floor_eq_iff]; norm_num
    have hr : Int.fract ((1234567 : ℚ) / 10 ^ ((6 : ℤ) - 5)) = 7 / 10 := by
      rw [Int.fract, hf]; norm_num
    rw [hf, hr, if_neg (by norm_num), if_pos (by norm_num)]
    rfl
  have s : sig 1234567 = (123457, 6) := by
    unfold sig
    rw [m, e]
    rfl
  show (if (1234567 : ℚ) < 0 then '-' :: gText (sig (-1234567)).1 (sig (-1234567)).2 else gText (sig 1234567).1 (sig 1234567).2) = _
  rw [if_neg (by norm_num), s]
  decide

end Verif.Tab
