import Verif.Model.RoundedCells
import Verif.Lemmas.Binary64
import Verif.Props.Rounded
import Verif.Props.Bins

/-! C164 Cell indices in rounded arithmetic. -/

namespace Verif.Fp
open Verif.Geo Verif.Map Real

/-- three roundings -/
theorem three_near {a b c : ℝ} (ha : |a - 1| ≤ 2.3e-16) (hb : |b - 1| ≤ 2.3e-16) (hc : |c - 1| ≤ 2.3e-16) :
    |a * b * c - 1| ≤ 7e-16 := by
  have h1 := near_mul ha hb (by norm_num)
  have h2 := near_mul h1 hc (by norm_num)
  norm_num at h2 ⊢
  linarith

/-- a cell coordinate before and after the way through [0, 1] -/
theorem cell_near {A : Arith} (h : A.Ok) {n k k' o : ℝ} (hn : 0 < n) (hk : 0 ≤ k) (hk' : |k' - k| ≤ 2.3e-16 * k)
    (ho : 0 ≤ o) (ho' : o ≤ 1) :
    |n * A.div (A.add k' o) n - (k + o)| ≤ 1e-15 * (k + 1) ∧
    |A.mul n (A.div (A.add k' o) n) - (k + o)| ≤ 1e-15 * (k + 1) ∧
    |A.mul (A.div (A.add k' o) n) n - (k + o)| ≤ 1e-15 * (k + 1) := by
  obtain ⟨a, ha, ea⟩ := addR h k' o
  obtain ⟨b, hb, eb⟩ := divR h (A.add k' o) hn.ne'
  obtain ⟨c, hc, ec⟩ := mulR h n (A.div (A.add k' o) n)
  obtain ⟨d, hd, ed⟩ := mulR h (A.div (A.add k' o) n) n
  have one : |(1 : ℝ) - 1| ≤ 2.3e-16 := by norm_num
  have key : ∀ c : ℝ, |c - 1| ≤ 2.3e-16 → |n * ((k' + o) * a / n * b) * c - (k + o)| ≤ 1e-15 * (k + 1) := by
    intro c hc
    have e : n * ((k' + o) * a / n * b) * c - (k + o) = (k' - k) + (k' - k) * (a * b * c - 1) + (k + o) * (a * b * c - 1) := by
      field_simp
      ring
    have h3 := three_near ha hb hc
    have h4 := abs_mul_le hk' h3
    have h5 := abs_mul_le (show |k + o| ≤ k + 1 by rw [abs_of_nonneg (by linarith)]; linarith) h3
    have h6 := abs_add_three (k' - k) ((k' - k) * (a * b * c - 1)) ((k + o) * (a * b * c - 1))
    rw [e]
    refine h6.trans ?_
    norm_num at hk' h4 h5 ⊢
    linarith
  refine ⟨?_, ?_, ?_⟩
  · have := key 1 one; rw [mul_one] at this; rw [eb, ea]; exact this
  · have := key c hc; rw [ec, eb, ea]; exact this
  · have := key d hd; rw [ed, eb, ea, mul_comm ((k' + o) * a / n * b) n]; exact this

theorem floor_near {k : ℤ} {x o d : ℝ} (h : |x - (k + o)| ≤ d) (h0 : d ≤ o) (h1 : o < 1 - d) : ⌊x⌋ = k := by
  obtain ⟨a, b⟩ := abs_le.mp h
  rw [Int.floor_eq_iff]
  constructor <;> linarith

/-- **C164** in rounded arithmetic the bin of every point of a cell away from its borders by more than rounding is that
cell. Missing for the full claim: offsets at the borders of the cell (`C164_refuted`). -/
theorem C164_bins_partial {A : Arith} (h : A.Ok) (side b : ℤ) (hs : 1 ≤ side) (h0 : 0 ≤ b) (h1 : b < 2 * side ^ 2) (o : ℝ)
    (ho : 2e-15 * side < o) (ho' : o < 1 - 2e-15 * side) :
    uv2bin A side (bin2uv A b side o) = b := by
  have hsR : (1 : ℝ) ≤ side := by exact_mod_cast hs
  have hs0 : (0 : ℝ) < side := by linarith
  have o0 : 0 ≤ o := by linarith
  have o1 : o ≤ 1 := by linarith
  set q := b / side with hq
  have eb : b = q * side + b % side := by have := Int.mul_ediv_add_emod b side; rw [hq]; linarith
  have m0 : 0 ≤ b % side := Int.emod_nonneg _ (by omega)
  have m1 : b % side < side := Int.emod_lt_of_pos _ (by omega)
  have q0 : 0 ≤ q := Int.ediv_nonneg h0 (by omega)
  have q1 : q < 2 * side := by
    by_contra hc
    push Not at hc
    nlinarith
  have q0R : (0 : ℝ) ≤ q := by exact_mod_cast q0
  have q1R : (q : ℝ) + 1 ≤ 2 * side := by exact_mod_cast q1
  have m0R : (0 : ℝ) ≤ (b % side : ℤ) := by exact_mod_cast m0
  have m1R : ((b % side : ℤ) : ℝ) + 1 ≤ side := by exact_mod_cast m1
  have hdiv : |A.div ((b - b % side : ℤ) : ℝ) side - q| ≤ 2.3e-16 * q := by
    have e1 : ((b - b % side : ℤ) : ℝ) / side = q := by
      have : b - b % side = q * side := by omega
      rw [this]; push_cast; field_simp
    obtain ⟨g, hg, eg⟩ := divR h ((b - b % side : ℤ) : ℝ) hs0.ne'
    rw [eg, e1, show (q : ℝ) * g - q = q * (g - 1) by ring, abs_mul, abs_of_nonneg q0R, mul_comm]
    exact mul_le_mul_of_nonneg_right hg q0R
  obtain ⟨u1, u2, -⟩ := cell_near h hs0 q0R hdiv o0 o1
  obtain ⟨-, v2, -⟩ := cell_near h (k' := ((b % side : ℤ) : ℝ)) hs0 m0R (by rw [sub_self, abs_zero]; positivity) o0 o1
  have dq : 1e-15 * ((q : ℝ) + 1) ≤ 2e-15 * side := by norm_num at *; linarith
  have dm : 1e-15 * (((b % side : ℤ) : ℝ) + 1) ≤ 2e-15 * side := by norm_num at *; linarith
  have fu := floor_near u2 (by linarith) (by linarith)
  have fv := floor_near v2 (by linarith) (by linarith)
  have ge : (bin2uv A b side o).1 ≥ 1 ↔ side ≤ q := by
    obtain ⟨l, r⟩ := abs_le.mp u1
    unfold bin2uv
    simp only
    set w := A.div (A.add (A.div ((b - b % side : ℤ) : ℝ) side) o) side
    constructor
    · intro hw
      by_contra hc
      push Not at hc
      have hc' : (q : ℝ) + 1 ≤ side := by exact_mod_cast hc
      nlinarith
    · intro hc
      have hc' : (side : ℝ) ≤ q := by exact_mod_cast hc
      by_contra hw
      push Not at hw
      nlinarith
  have eu : axisBin A side (bin2uv A b side o).1 = q % side := by
    unfold axisBin bin2uv
    simp only
    rw [fu]
  have ev : axisBin A side (bin2uv A b side o).2 = b % side := by
    unfold axisBin bin2uv
    simp only
    rw [fv, Int.emod_emod]
  unfold uv2bin uv2ij
  simp only [if_true]
  rw [eu, ev]
  have hrow : q % side + (if (bin2uv A b side o).1 ≥ 1 then side else 0) = q := by
    by_cases hc : side ≤ q
    · rw [if_pos (ge.mpr hc)]
      have : q % side = q - side := by
        rw [← Int.sub_emod_right, Int.emod_eq_of_lt (by omega) (by omega)]
      omega
    · rw [if_neg (fun hw => hc (ge.mp hw)), Int.emod_eq_of_lt q0 (by omega)]
      omega
  rw [hrow]
  exact eb.symm

/-- **C164** rows and columns are in range in rounded arithmetic: with one square both are below `side`; with two the row of
the second square is `side` higher than that of the first -/
theorem C164_rows (A : Arith) (side : ℤ) (hs : 1 ≤ side) (two : Bool) (uv : ℝ × ℝ) :
    (0 ≤ (uv2ij A two side uv).2 ∧ (uv2ij A two side uv).2 < side) ∧
    (two = false ∨ uv.1 < 1 → 0 ≤ (uv2ij A two side uv).1 ∧ (uv2ij A two side uv).1 < side) ∧
    (two = true → 1 ≤ uv.1 → side ≤ (uv2ij A two side uv).1 ∧ (uv2ij A two side uv).1 < 2 * side) := by
  have h : ∀ x, 0 ≤ axisBin A side x ∧ axisBin A side x < side := fun x =>
    ⟨Int.emod_nonneg _ (by omega), Int.emod_lt_of_pos _ (by omega)⟩
  obtain ⟨a, b⟩ := h uv.1
  refine ⟨h uv.2, ?_, ?_⟩
  · rintro (rfl | h1)
    · simp only [uv2ij, Bool.false_eq_true, if_false]; omega
    · unfold uv2ij; simp only; rw [if_neg (not_le.mpr h1)]; cases two <;> simp <;> omega
  · rintro rfl h1
    unfold uv2ij; simp only; rw [if_pos h1]; simp; omega

/-- **C164** the centre of every cell, as `bin2uv` gives it by default -/
theorem C164_centre {A : Arith} (h : A.Ok) (side b : ℤ) (hs : 1 ≤ side) (hs' : side ≤ 10 ^ 14) (h0 : 0 ≤ b)
    (h1 : b < 2 * side ^ 2) : uv2bin A side (bin2uv A b side (1 / 2)) = b := by
  have : (side : ℝ) ≤ 10 ^ 14 := by exact_mod_cast hs'
  exact C164_bins_partial h side b hs h0 h1 _ (by norm_num at *; linarith) (by norm_num at *; linarith)

/-- The full claim, as it holds in exact arithmetic (C26): every offset from 0 up to but not including 1. -/
def C164_statement (A : Arith) : Prop :=
  ∀ (side b : ℤ) (o : ℝ), 1 ≤ side → 0 ≤ b → b < 2 * side ^ 2 → 0 ≤ o → o < 1 →
    uv2bin A side (bin2uv A b side o) = b

/-- It holds in exact arithmetic. -/
theorem C164_exact : C164_statement exact := fun side b o hs h0 h1 ho ho' =>
  C26_bin_uv_bin side b hs h0 h1 o ho ho'

/-- It fails in binary64: the lower corner of cell 13 of a grid of side 23 is found in cell 12. -/
theorem C164_refuted : ¬ C164_statement binary64 := by
  intro hc
  have h := hc 23 13 0 (by norm_num) (by norm_num) (by norm_num) le_rfl one_pos
  have r0 : rnd ((((13 : ℤ) - 13 % 23 : ℤ) : ℝ) / ((23 : ℤ) : ℝ)) = 0 := by
    norm_num [rnd_zero]
  have r13 : rnd ((((13 : ℤ) % 23 : ℤ) : ℝ) + 0) = 13 := by
    have := rnd_whole (k := 13) (by norm_num)
    norm_num at this ⊢
    exact this
  have d : rnd ((13 : ℝ) / ((23 : ℤ) : ℝ)) = ((5091025665723169 : ℤ) : ℝ) * 2 ^ (-1 - 52 : ℤ) := by
    refine rnd_eq (-1) 5091025665723169 ?_ ?_ ?_ <;> norm_num [abs_lt, abs_of_pos]
  have m : rnd (((23 : ℤ) : ℝ) * (((5091025665723169 : ℤ) : ℝ) * 2 ^ (-1 - 52 : ℤ))) =
      ((7318349394477055 : ℤ) : ℝ) * 2 ^ (3 - 52 : ℤ) := by
    refine rnd_eq 3 7318349394477055 ?_ ?_ ?_ <;> norm_num [abs_lt, abs_of_pos]
  have hu : (bin2uv binary64 13 23 0).1 = 0 := by
    unfold bin2uv binary64
    simp only
    rw [r0, add_zero, rnd_zero, zero_div, rnd_zero]
  have hv : (bin2uv binary64 13 23 0).2 = ((5091025665723169 : ℤ) : ℝ) * 2 ^ (-1 - 52 : ℤ) := by
    unfold bin2uv binary64
    simp only
    rw [r13, d]
  have au : axisBin binary64 23 0 = 0 := by
    unfold axisBin binary64
    simp only
    rw [mul_zero, rnd_zero]
    simp
  have av : axisBin binary64 23 (((5091025665723169 : ℤ) : ℝ) * 2 ^ (-1 - 52 : ℤ)) = 12 := by
    unfold axisBin binary64
    simp only
    rw [m]
    have : ⌊((7318349394477055 : ℤ) : ℝ) * 2 ^ (3 - 52 : ℤ)⌋ = 12 := by
      rw [Int.floor_eq_iff]; constructor <;> norm_num
    rw [this]; rfl
  unfold uv2bin uv2ij at h
  rw [hu, hv, au, av] at h
  norm_num at h

/-- multiples of a power of two, going through `[0, 2)` and back -/
theorem cell_power {n : ℕ} {k : ℤ} (hk : |k| < 2 ^ 53) :
    binary64.div k ((2 ^ n : ℤ) : ℝ) = (k : ℝ) / ((2 ^ n : ℤ) : ℝ) ∧
    binary64.mul ((2 ^ n : ℤ) : ℝ) ((k : ℝ) / ((2 ^ n : ℤ) : ℝ)) = k := by
  have e : (k : ℝ) / ((2 ^ n : ℤ) : ℝ) = k * 2 ^ (-(n : ℤ)) := by
    push_cast; rw [zpow_neg, zpow_natCast, div_eq_mul_inv]
  constructor
  · unfold binary64
    simp only
    rw [e, rnd_float _ hk]
  · unfold binary64
    simp only
    have : ((2 ^ n : ℤ) : ℝ) * ((k : ℝ) / ((2 ^ n : ℤ) : ℝ)) = k := by push_cast; field_simp
    rw [this, rnd_whole hk]

/-- **C164** the lower corner is found in its own cell when the side of the grid is a power of two -/
theorem C164_power_of_two (n : ℕ) (hn : n ≤ 25) (b : ℤ) (h0 : 0 ≤ b) (h1 : b < 2 * (2 ^ n) ^ 2) :
    uv2bin binary64 (2 ^ n) (bin2uv binary64 b (2 ^ n) 0) = b := by
  have p0 : (0 : ℤ) < 2 ^ n := by positivity
  have p1 : (2 : ℤ) ^ n ≤ 2 ^ 25 := pow_le_pow_right₀ (by norm_num) hn
  have pR : (0 : ℝ) < ((2 ^ n : ℤ) : ℝ) := by exact_mod_cast p0
  set S : ℤ := 2 ^ n with hS
  have m0 : 0 ≤ b % S := Int.emod_nonneg _ (by omega)
  have m1 : b % S < S := Int.emod_lt_of_pos _ p0
  have eb := Int.mul_ediv_add_emod b S
  set q := b / S with hq
  have q0 : 0 ≤ q := Int.ediv_nonneg h0 (by omega)
  have q1 : q < 2 * S := by
    by_contra hc
    push Not at hc
    nlinarith
  have aq : |q| < 2 ^ 53 := by rw [abs_of_nonneg q0]; omega
  have am : |b % S| < 2 ^ 53 := by rw [abs_of_nonneg m0]; omega
  have ab : |b - b % S| < 2 ^ 53 := by
    have : b - b % S = S * q := by omega
    rw [this, abs_of_nonneg (by positivity)]
    nlinarith
  have e1 : ((b - b % S : ℤ) : ℝ) / (S : ℝ) = q := by
    have : b - b % S = S * q := by omega
    rw [this]; push_cast; field_simp
  have c1 := cell_power (n := n) ab
  have c2 := cell_power (n := n) aq
  have c3 := cell_power (n := n) am
  rw [← hS] at c1 c2 c3
  have add0 : ∀ k : ℤ, |k| < 2 ^ 53 → binary64.add k 0 = k := fun k hk => by
    unfold binary64; simp only; rw [add_zero, rnd_whole hk]
  have hb : bin2uv binary64 b S 0 = Geo.bin2uv b S 0 := by
    unfold bin2uv Geo.bin2uv
    rw [c1.1, e1, add0 _ aq, add0 _ am, c2.1, c3.1, add_zero, add_zero]
  have hx := C26_bin_uv_bin S b (by omega) h0 h1 0 le_rfl one_pos
  have ax : axisBin binary64 S (bin2uv binary64 b S 0).1 = Geo.axisBin S (Geo.bin2uv b S 0).1 := by
    rw [hb]
    unfold axisBin Geo.axisBin Geo.bin2uv
    simp only
    rw [e1, add_zero, c2.2, mul_div_cancel₀ _ pR.ne']
  have ay : axisBin binary64 S (bin2uv binary64 b S 0).2 = Geo.axisBin S (Geo.bin2uv b S 0).2 := by
    rw [hb]
    unfold axisBin Geo.axisBin Geo.bin2uv
    simp only
    rw [add_zero, c3.2, mul_div_cancel₀ _ pR.ne']
  unfold Geo.uv2bin Geo.uv2ij at hx
  unfold uv2bin uv2ij
  rw [ax, ay, hb]
  exact hx

theorem trunc_near {k : ℕ} {x o d : ℝ} (h : |x - (k + o)| ≤ d) (h0 : d ≤ o) (h1 : o < 1 - d) : trunc x = k := by
  have hf := floor_near (k := k) (by exact_mod_cast h) h0 h1
  have hx : 0 ≤ x := by
    have := (abs_le.mp h).1
    have : (0 : ℝ) ≤ k := by positivity
    linarith
  unfold trunc
  rw [if_pos hx, hf]

/-- **C164** flat index to uv and back in rounded arithmetic, when the jitter leaves a margin of rounding to the
borders of the cell. Missing for the full claim: a jitter rate of one (`C164_idx_refuted`). -/
theorem C164_idx_partial {A : Arith} (h : A.Ok) (n m : ℕ) (idx : ℕ) (hidx : idx < n * m) (jitter : Bool) (rate : ℝ)
    (hr0 : 0 ≤ rate) (hrn : 2e-15 * n < 1 - rate) (hrm : 2e-15 * m < 1 - rate)
    (o : ℝ × ℝ) (h1 : OffsetOk jitter rate o.1) (h2 : OffsetOk jitter rate o.2) :
    ∃ uv, idx2uv A (n, m) o idx = .ok uv ∧ uv2idx A (n, m) uv = idx := by
  have hm : 0 < m := by
    rcases Nat.eq_zero_or_pos m with h | h
    · rw [h] at hidx; simp at hidx
    · exact h
  have hn : 0 < n := by
    rcases Nat.eq_zero_or_pos n with h | h
    · rw [h] at hidx; simp at hidx
    · exact h
  have key : ∀ (s k : ℕ) (o : ℝ), k < s → 2e-15 * s < 1 - rate → OffsetOk jitter rate o →
      trunc (A.mul (A.div (A.add k o) s) s) = k := by
    intro s k o hk hs ho
    have hs0 : (0 : ℝ) < s := by exact_mod_cast (Nat.zero_le k).trans_lt hk
    have hk0 : (0 : ℝ) ≤ k := by positivity
    have hk1 : (k : ℝ) + 1 ≤ s := by exact_mod_cast hk
    have hmar : 1e-15 * ((k : ℝ) + 1) ≤ o ∧ o < 1 - 1e-15 * ((k : ℝ) + 1) := by
      unfold OffsetOk at ho
      norm_num at hs ⊢
      split_ifs at ho
      · constructor <;> linarith [ho.1, ho.2]
      · rw [ho]; constructor <;> linarith
    have ho0 : 0 ≤ o := by norm_num at hmar; linarith [hmar.1]
    have ho1 : o ≤ 1 := by norm_num at hmar; linarith [hmar.2]
    obtain ⟨-, -, hc⟩ := cell_near h (k' := k) hs0 hk0 (by rw [sub_self, abs_zero]; positivity) ho0 ho1
    exact trunc_near hc hmar.1 hmar.2
  refine ⟨offsetCell A (idx / m, idx % m) o ((n : ℝ), (m : ℝ)), ?_, ?_⟩
  · unfold idx2uv unravel
    simp only
    rw [if_pos hidx]; rfl
  · unfold uv2idx offsetCell
    simp only
    rw [key n _ _ (Nat.div_lt_of_lt_mul (by rwa [mul_comm])) hrn h1, key m _ _ (Nat.mod_lt _ hm) hrm h2]
    exact_mod_cast Nat.div_add_mod' idx m

/-- What C49 asks of the planar mapper, in an arithmetic. -/
def C164_idx_statement (A : Arith) : Prop :=
  ∀ (n m idx : ℕ), idx < n * m → ∀ (jitter : Bool) (rate : ℝ), rate ≤ 1 → ∀ o : ℝ × ℝ,
    OffsetOk jitter rate o.1 → OffsetOk jitter rate o.2 →
    ∃ uv, idx2uv A (n, m) o idx = .ok uv ∧ uv2idx A (n, m) uv = idx

/-- With a jitter rate of one the sum of the index and the largest draw of the generator, 1 - 2 ^ -53, rounds up to the
next index: the last cell of a 3 x 3 grid comes back as index 12, outside of the grid. -/
theorem C164_full_jitter :
    OffsetOk true 1 (1 - 2⁻¹ ^ 53) ∧
    ∃ uv, idx2uv binary64 (3, 3) (1 - 2⁻¹ ^ 53, 1 - 2⁻¹ ^ 53) 8 = .ok uv ∧ uv2idx binary64 (3, 3) uv = 12 := by
  have ho : OffsetOk true 1 (1 - 2⁻¹ ^ 53) := by
    unfold OffsetOk
    rw [if_pos ⟨rfl, one_pos⟩]
    constructor <;> norm_num
  have r3 : rnd ((2 : ℕ) + (1 - 2⁻¹ ^ 53)) = 3 := by
    have := rnd_eq (x := (2 : ℕ) + (1 - 2⁻¹ ^ 53)) 1 (3 * 2 ^ 51) (by norm_num [abs_of_pos]) (by norm_num [abs_of_pos])
      (by norm_num [abs_lt])
    rw [this]; norm_num
  have w1 : rnd 1 = 1 := by have := rnd_whole (k := 1) (by norm_num); push_cast at this; exact this
  have w3 : rnd 3 = 3 := by have := rnd_whole (k := 3) (by norm_num); push_cast at this; exact this
  have hc : offsetCell binary64 (2, 2) (1 - 2⁻¹ ^ 53, 1 - 2⁻¹ ^ 53) ((3 : ℕ), (3 : ℕ)) = (1, 1) := by
    unfold offsetCell binary64
    simp only
    rw [r3, show (3 : ℝ) / ((3 : ℕ) : ℝ) = 1 by norm_num, w1]
  refine ⟨ho, (1, 1), ?_, ?_⟩
  · unfold idx2uv unravel
    simp only
    rw [if_pos (by norm_num)]
    show Except.ok (offsetCell binary64 (2, 2) (1 - 2⁻¹ ^ 53, 1 - 2⁻¹ ^ 53) ((3 : ℕ), (3 : ℕ))) = _
    rw [hc]
  · unfold uv2idx binary64 trunc
    simp only
    rw [one_mul, show (((3 : ℕ) : ℝ)) = 3 by norm_num, w3, if_pos (by norm_num), show (3 : ℝ) = ((3 : ℤ) : ℝ) by norm_num,
      Int.floor_intCast]
    norm_num

theorem C164_idx_refuted : ¬ C164_idx_statement binary64 := by
  intro hc
  obtain ⟨ho, uv, a, b⟩ := C164_full_jitter
  obtain ⟨uv', a', b'⟩ := hc 3 3 8 (by norm_num) true 1 le_rfl (1 - 2⁻¹ ^ 53, 1 - 2⁻¹ ^ 53) ho ho
  rw [a] at a'
  cases a'
  rw [b] at b'
  norm_num at b'

/-- the conditions can be met: binary64, a grid of side 1000, its centres and a jitter of nine tenths -/
example : binary64.Ok ∧ (2e-15 * (1000 : ℤ) < (1 / 2 : ℝ)) ∧ ((1 / 2 : ℝ) < 1 - 2e-15 * (1000 : ℤ)) ∧
    (2e-15 * (1000 : ℕ) < (1 - 0.9 : ℝ)) ∧ OffsetOk true 0.9 0.06 :=
  ⟨binary64_ok, by norm_num, by norm_num, by norm_num, by unfold OffsetOk; norm_num⟩

/-- **C163** the pixel round trip in binary64 -/
theorem C163_binary64 (e ne : Bool) (y p va cf : ℝ) (hK : 0 < va * cf) (hK' : va * cf ≤ 180.0001)
    {res i j : ℕ} (hi : i < res) (hj : j < res) (hw : 180 / (va * cf) * res ≤ 1e6) :
    let m : FView := ⟨va, cf, (rmtxYp binary64 e ne y p).1, (rmtxYp binary64 e ne y p).2⟩
    m.ray2pixel binary64 res (m.pixel2ray binary64 res (pixelCentre i j)) = ((i : ℤ), (j : ℤ)) :=
  C163_mapper binary64_ok e ne y p va cf hK hK' hi hj hw

end Verif.Fp
