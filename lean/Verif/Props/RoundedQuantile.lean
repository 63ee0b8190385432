import Verif.Model.RoundedQuantile
import Verif.Lemmas.Binary64Order
import Verif.Props.QuantileSteady

/-! C215: weighted quantiles in double precision. -/

namespace Verif.Fp
open Verif.Py Verif.Quant

/-- a weight that is too small to change a sum: less than 2 ^ -54 of it -/
theorem absorb {a w : ℝ} (ha : rnd a = a) (h0 : 0 < a) (hw : 0 ≤ w) (h : w ≤ 2⁻¹ ^ 54 * a) : rnd (a + w) = a := by
  obtain ⟨l, u⟩ := log_bounds h0
  set L := Int.log 2 a with hL
  have hp : (0 : ℝ) < 2 ^ (L - 52) := by positivity
  have hu : ulp a = 2 ^ (L - 52) := by unfold ulp; rw [abs_of_pos h0]
  have e2 : (2 : ℝ) ^ (L + 1) = ((2 ^ 53 : ℤ) : ℝ) * 2 ^ (L - 52) := by
    rw [show L + 1 = 53 + (L - 52) by ring, zpow_add₀ two_ne_zero]; norm_num
  obtain ⟨n, hn⟩ : ∃ n : ℤ, a = n * 2 ^ (L - 52) := ⟨rne (a / ulp a), by
    conv_lhs => rw [← ha]
    unfold rnd; rw [hu]⟩
  have n1 : n ≤ 2 ^ 53 - 1 := by
    rw [e2, hn] at u
    have := lt_of_mul_lt_mul_right u hp.le
    have : n < 2 ^ 53 := by exact_mod_cast this
    omega
  have small : w < 1 / 2 * 2 ^ (L - 52) := by
    have : 2⁻¹ ^ 54 * a < 2⁻¹ ^ 54 * 2 ^ (L + 1) := mul_lt_mul_of_pos_left u (by positivity)
    rw [e2] at this
    have c : (2⁻¹ : ℝ) ^ 54 * (((2 ^ 53 : ℤ) : ℝ) * 2 ^ (L - 52)) = 1 / 2 * 2 ^ (L - 52) := by
      rw [← mul_assoc]; norm_num
    linarith
  have up : a + w < 2 ^ (L + 1) := by
    rw [e2, hn]
    have : (n : ℝ) ≤ ((2 ^ 53 - 1 : ℤ) : ℝ) := by exact_mod_cast n1
    have := mul_le_mul_of_nonneg_right this hp.le
    push_cast at this ⊢
    linarith
  rw [rnd_eq L n (by rw [abs_of_nonneg (by linarith)]; linarith) (by rw [abs_of_nonneg (by linarith)]; exact up), ← hn]
  have : (a + w) / 2 ^ (L - 52) - n = w / 2 ^ (L - 52) := by
    rw [hn]; field_simp; ring
  rw [this, abs_of_nonneg (by positivity), div_lt_iff₀ hp]
  exact small

theorem rnd_pos {x : ℝ} (h : 0 < x) : 0 < rnd x := lt_of_lt_of_le (by positivity) (rnd_binade h).1

/-- sums of positive floats do not fall -/
theorem cumF_sorted {acc : ℝ} (h0 : 0 ≤ acc) (ha : rnd acc = acc) : ∀ ws : List ℝ, (∀ w ∈ ws, 0 ≤ w) →
    (acc :: cumF binary64 acc ws).Pairwise (· ≤ ·) ∧ ∀ c ∈ cumF binary64 acc ws, 0 ≤ c
  | [], _ => ⟨by simp [cumF], by simp [cumF]⟩
  | w :: ws, h => by
    have hw := h w List.mem_cons_self
    have s0 : 0 ≤ acc + w := by linarith
    have le : acc ≤ rnd (acc + w) := by
      conv_lhs => rw [← ha]
      exact rnd_mono h0 (by linarith)
    obtain ⟨i1, i2⟩ := cumF_sorted (acc := rnd (acc + w)) (rnd_nonneg s0) (rnd_idem _ s0) ws fun x hx =>
      h x (List.mem_cons_of_mem _ hx)
    show (acc :: rnd (acc + w) :: cumF binary64 (rnd (acc + w)) ws).Pairwise (· ≤ ·) ∧ _
    constructor
    · refine List.pairwise_cons.mpr ⟨fun c hc => ?_, i1⟩
      rcases List.mem_cons.mp hc with rfl | hc
      · exact le
      · exact le.trans ((List.pairwise_cons.mp i1).1 c hc)
    · intro c hc
      rcases List.mem_cons.mp hc with rfl | hc
      · exact rnd_nonneg s0
      · exact i2 c hc

theorem cumF_length (acc : ℝ) (ws : List ℝ) : (cumF binary64 acc ws).length = ws.length := by
  induction ws generalizing acc with
  | nil => rfl
  | cons w ws ih => simp [cumF, ih]

theorem cwF_length (ws : List ℝ) : (cwF binary64 ws).length = ws.length := by
  cases ws with
  | nil => rfl
  | cons w ws => simp [cwF, cumF_length]

/-- what the arguments are: positive floats -/
structure Weights (ws : List ℝ) : Prop where
  ne : ws ≠ []
  pos : ∀ w ∈ ws, 0 < w
  float : ∀ w ∈ ws, rnd w = w

theorem cwF_sorted {ws : List ℝ} (h : Weights ws) : (cwF binary64 ws).Pairwise (· ≤ ·) ∧ (cwF binary64 ws).getD 0 0 = 0 := by
  obtain ⟨w, ws, rfl⟩ := List.exists_cons_of_ne_nil h.ne
  obtain ⟨k, -⟩ := cumF_sorted (h.pos w List.mem_cons_self).le (h.float w List.mem_cons_self) ws fun x hx =>
    (h.pos x (List.mem_cons_of_mem _ hx)).le
  constructor
  · unfold cwF
    rw [List.pairwise_map]
    refine List.Pairwise.imp_of_mem (fun {a b} ha hb hab => ?_) k
    show rnd (a - w) ≤ rnd (b - w)
    have : w ≤ a := by
      rcases List.mem_cons.mp ha with rfl | ha
      · exact le_rfl
      · exact (List.pairwise_cons.mp k).1 a ha
    exact rnd_mono (by linarith) (by linarith)
  · show rnd (w - w) = 0
    rw [sub_self, rnd_zero]

/-- counting in a nondecreasing list -/
theorem countP_le_sorted (L : List ℝ) (h : L.Pairwise (· ≤ ·)) (m : ℝ) (p : ℝ → Bool) (hp : ∀ c, p c = true ↔ c ≤ m) :
    (∀ i < L.countP p, L.getD i 0 ≤ m) ∧ (∀ i < L.length, L.countP p ≤ i → m < L.getD i 0) := by
  induction L with
  | nil => simp
  | cons c L ih =>
    rw [List.pairwise_cons] at h
    obtain ⟨ih1, ih2⟩ := ih h.2
    by_cases hc : c ≤ m
    · rw [List.countP_cons_of_pos ((hp c).mpr hc)]
      constructor
      · intro i hi
        cases i with
        | zero => simpa using hc
        | succ i => simpa using ih1 i (by omega)
      · intro i hi hk
        cases i with
        | zero => omega
        | succ i => simpa using ih2 i (by simpa using hi) (by omega)
    · rw [List.countP_cons_of_neg (fun k => hc ((hp c).mp k))]
      have hz : L.countP p = 0 := by
        rw [List.countP_eq_zero]
        intro x hx k
        exact hc ((h.1 x hx).trans ((hp x).mp k))
      rw [hz]
      refine ⟨by simp, fun i hi _ => ?_⟩
      cases i with
      | zero => simpa using hc
      | succ i => simpa using ih2 i (by simpa using hi) (by omega)

/-- the index found by `searchsorted` -/
theorem leftF_facts {ws : List ℝ} (h : Weights ws) {q : ℝ} (h0 : 0 ≤ q) :
    leftF binary64 ws q < ws.length ∧ (cwF binary64 ws).getD (leftF binary64 ws q) 0 ≤ midF binary64 ws q ∧
    0 ≤ midF binary64 ws q ∧ (∀ i, leftF binary64 ws q < i → i < ws.length → midF binary64 ws q < (cwF binary64 ws).getD i 0) := by
  classical
  obtain ⟨hs, hz⟩ := cwF_sorted h
  have len := cwF_length ws
  have lpos : 0 < ws.length := List.length_pos_of_ne_nil h.ne
  have hne : cwF binary64 ws ≠ [] := fun e => by rw [e] at len; simp at len; omega
  have T0 : 0 ≤ (cwF binary64 ws).getLastD 0 := by
    rw [getLastD_eq _ hne]
    refine hz.symm.le.trans (getD_mono hs (Nat.zero_le _) (by omega))
  have m0 : 0 ≤ midF binary64 ws q := rnd_nonneg (mul_nonneg h0 T0)
  obtain ⟨c1, c2⟩ := countP_le_sorted _ hs (midF binary64 ws q) (fun c => decide (c ≤ midF binary64 ws q)) (fun c => by simp)
  have cpos : 0 < (cwF binary64 ws).countP (fun c => decide (c ≤ midF binary64 ws q)) := by
    by_contra c
    have := c2 0 (by omega) (by omega)
    rw [hz] at this
    linarith
  have cle := List.countP_le_length (p := fun c => decide (c ≤ midF binary64 ws q)) (l := cwF binary64 ws)
  have el : leftF binary64 ws q = (cwF binary64 ws).countP (fun c => decide (c ≤ midF binary64 ws q)) - 1 := by
    unfold leftF; congr
  exact ⟨by omega, c1 _ (by omega), m0, fun i hi hl => c2 i (by omega) (by omega)⟩

/-- **C215** the quantile lies between two neighbouring values up to rounding, and nothing is divided by zero -/
theorem C215_range {ds ws : List ℝ} (h : Weights ws) (hl : ds.length = ws.length) (hs : ds.Pairwise (· ≤ ·)) {q : ℝ} (h0 : 0 ≤ q)
    (np : List ℝ → ℝ → ℝ) :
    ∃ x, quantF binary64 np ds ws q = .ok x ∧
      (close1 q → |x - ds.getD (leftF binary64 ws q) 0| ≤ 1e-15 * |ds.getD (leftF binary64 ws q) 0|) ∧
      (¬ close1 q → leftF binary64 ws q + 1 < ws.length →
        0 < binary64.sub ((cwF binary64 ws).getD (leftF binary64 ws q + 1) 0) ((cwF binary64 ws).getD (leftF binary64 ws q) 0) ∧
        ds.getD (leftF binary64 ws q) 0 - 1e-15 * (|ds.getD (leftF binary64 ws q) 0| + |ds.getD (leftF binary64 ws q + 1) 0|) ≤ x ∧
        x ≤ ds.getD (leftF binary64 ws q + 1) 0 +
          1e-15 * (|ds.getD (leftF binary64 ws q) 0| + |ds.getD (leftF binary64 ws q + 1) 0|)) := by
  obtain ⟨lt, le, m0, gt⟩ := leftF_facts h h0
  unfold quantF
  rw [if_neg h.ne]
  set l := leftF binary64 ws q
  by_cases hc : close1 q
  · rw [if_pos hc]
    refine ⟨_, rfl, fun _ => ?_, fun c => absurd hc c⟩
    unfold interpF
    show |rnd (ds.getD l 0 + rnd (rnd (rnd (ds.getD l 0 - ds.getD l 0) * _) / 1)) - _| ≤ _
    rw [sub_self, rnd_zero, zero_mul, rnd_zero, zero_div, rnd_zero, add_zero]
    refine (rnd_near _).trans (mul_le_mul_of_nonneg_right (by norm_num) (abs_nonneg _))
  rw [if_neg hc]
  by_cases hlt : l + 1 < ws.length
  swap
  · rw [if_neg hlt]
    exact ⟨_, rfl, fun c => absurd c hc, fun _ c => absurd c hlt⟩
  rw [if_pos hlt]
  refine ⟨_, rfl, fun c => absurd c hc, fun _ _ => ?_⟩
  have g := gt (l + 1) (Nat.lt_succ_self l) hlt
  have dd := getD_mono hs (Nat.le_succ l) (by omega)
  unfold interpF
  generalize ds.getD l 0 = a at dd ⊢
  generalize ds.getD (l + 1) 0 = b at dd ⊢
  generalize (cwF binary64 ws).getD l 0 = c at le ⊢
  generalize (cwF binary64 ws).getD (l + 1) 0 = d at g ⊢
  generalize midF binary64 ws q = m at g le ⊢
  show 0 < rnd (d - c) ∧ _ ≤ rnd (a + rnd (rnd (rnd (b - a) * rnd (m - c)) / rnd (d - c))) ∧
    rnd (a + rnd (rnd (rnd (b - a) * rnd (m - c)) / rnd (d - c))) ≤ _
  have p : 0 < rnd (d - c) := rnd_pos (by linarith)
  refine ⟨p, ?_⟩
  have f0 : 0 ≤ rnd (m - c) := rnd_nonneg (by linarith)
  have f1 : rnd (m - c) ≤ rnd (d - c) := rnd_mono (by linarith) (by linarith)
  have s0 : 0 ≤ rnd (b - a) := rnd_nonneg (by linarith)
  have s1 : rnd (b - a) ≤ (1 + 2⁻¹ ^ 53) * (b - a) := by
    have := rnd_abs (b - a)
    rwa [abs_of_nonneg s0, abs_of_nonneg (by linarith)] at this
  have t0 : 0 ≤ rnd (rnd (b - a) * rnd (m - c)) := rnd_nonneg (mul_nonneg s0 f0)
  have t1 : rnd (rnd (b - a) * rnd (m - c)) ≤ (1 + 2⁻¹ ^ 53) * (rnd (b - a) * rnd (d - c)) := by
    have := rnd_abs (rnd (b - a) * rnd (m - c))
    rw [abs_of_nonneg t0, abs_of_nonneg (mul_nonneg s0 f0)] at this
    exact this.trans (mul_le_mul_of_nonneg_left (mul_le_mul_of_nonneg_left f1 s0) (by positivity))
  have v0 : 0 ≤ rnd (rnd (b - a) * rnd (m - c)) / rnd (d - c) := div_nonneg t0 p.le
  have v1 : rnd (rnd (b - a) * rnd (m - c)) / rnd (d - c) ≤ (1 + 2⁻¹ ^ 53) * rnd (b - a) := by
    rw [div_le_iff₀ p]; linarith
  have w0 : 0 ≤ rnd (rnd (rnd (b - a) * rnd (m - c)) / rnd (d - c)) := rnd_nonneg v0
  have w1 : rnd (rnd (rnd (b - a) * rnd (m - c)) / rnd (d - c)) ≤ (1 + 4e-16) * (b - a) := by
    have := rnd_abs (rnd (rnd (b - a) * rnd (m - c)) / rnd (d - c))
    rw [abs_of_nonneg w0, abs_of_nonneg v0] at this
    have k1 := mul_le_mul_of_nonneg_left v1 (show (0 : ℝ) ≤ 1 + 2⁻¹ ^ 53 by positivity)
    have k2 := mul_le_mul_of_nonneg_left s1 (show (0 : ℝ) ≤ (1 + 2⁻¹ ^ 53) * (1 + 2⁻¹ ^ 53) by positivity)
    have k3 : (1 + 2⁻¹ ^ 53) * (1 + 2⁻¹ ^ 53) * ((1 + 2⁻¹ ^ 53) * (b - a)) ≤ (1 + 4e-16) * (b - a) := by
      rw [← mul_assoc]
      exact mul_le_mul_of_nonneg_right (by norm_num) (by linarith)
    linarith
  generalize rnd (rnd (rnd (b - a) * rnd (m - c)) / rnd (d - c)) = v at w0 w1 ⊢
  have r := abs_le.mp (rnd_near (a + v))
  have hb : |a + v| ≤ 2 * (|a| + |b|) := by
    rw [abs_le]
    constructor <;> cases abs_cases a <;> cases abs_cases b <;> linarith
  have e : (2⁻¹ : ℝ) ^ 53 * |a + v| ≤ 1.2e-16 * (2 * (|a| + |b|)) :=
    mul_le_mul (by norm_num) hb (abs_nonneg _) (by norm_num)
  have ba : b - a ≤ |a| + |b| := by cases abs_cases a <;> cases abs_cases b <;> linarith
  constructor <;> linarith [abs_nonneg a, abs_nonneg b]

/-- **C215** the unweighted formula is used exactly when no weight after the first one counts in the sum -/
theorem C215_fallback {ws : List ℝ} (h : Weights ws) {q : ℝ} (h0 : 0 ≤ q) (h1 : q ≤ 1) (hc : ¬ close1 q) :
    leftF binary64 ws q + 1 < ws.length ↔ 0 < (cwF binary64 ws).getLastD 0 := by
  obtain ⟨lt, le, m0, gt⟩ := leftF_facts h h0
  obtain ⟨hs, hz⟩ := cwF_sorted h
  have len := cwF_length ws
  have hne : cwF binary64 ws ≠ [] := fun e => by rw [e] at len; simp at len; omega
  have eT := getLastD_eq _ hne
  rw [len] at eT
  constructor
  · intro hl
    have g := gt (ws.length - 1) (by omega) (by omega)
    rw [← eT] at g
    exact m0.trans_lt g
  · intro hT
    by_contra c
    have el : leftF binary64 ws q = ws.length - 1 := by omega
    rw [el, ← eT] at le
    have hq : q ≤ 1 - 1e-5 := by
      by_contra k
      refine hc ?_
      unfold close1
      rw [abs_le]
      constructor <;> norm_num <;> norm_num at k <;> linarith
    have : midF binary64 ws q ≤ (1 + 2⁻¹ ^ 53) * (q * (cwF binary64 ws).getLastD 0) := by
      have := rnd_abs (q * (cwF binary64 ws).getLastD 0)
      rw [abs_of_nonneg (mul_nonneg h0 hT.le), abs_of_nonneg (rnd_nonneg (mul_nonneg h0 hT.le))] at this
      exact this
    have k1 : (1 + 2⁻¹ ^ 53) * (q * (cwF binary64 ws).getLastD 0) ≤ (1 + 2⁻¹ ^ 53) * ((1 - 1e-5) * (cwF binary64 ws).getLastD 0) :=
      mul_le_mul_of_nonneg_left (mul_le_mul_of_nonneg_right hq hT.le) (by positivity)
    have k2 : (1 + 2⁻¹ ^ 53) * ((1 - 1e-5) * (cwF binary64 ws).getLastD 0) < 1 * (cwF binary64 ws).getLastD 0 := by
      rw [← mul_assoc]
      exact mul_lt_mul_of_pos_right (by norm_num) hT
    linarith

theorem cumF_absorbed {a : ℝ} (ha : rnd a = a) (h0 : 0 < a) (ws : List ℝ) (h : ∀ w ∈ ws, 0 ≤ w ∧ w ≤ 2⁻¹ ^ 54 * a) :
    cumF binary64 a ws = List.replicate ws.length a := by
  induction ws with
  | nil => rfl
  | cons w ws ih =>
    obtain ⟨w0, w1⟩ := h w List.mem_cons_self
    show rnd (a + w) :: cumF binary64 (rnd (a + w)) ws = _
    rw [absorb ha h0 w0 w1, ih fun x hx => h x (List.mem_cons_of_mem _ hx)]
    rfl

/-- **C215** weights that are small against the weight of the smallest value are ignored altogether: the outcome is the
unweighted quantile -/
theorem C215_ignored {a : ℝ} {ws ds : List ℝ} (ha : rnd a = a) (h0 : 0 < a) (h : ∀ w ∈ ws, 0 < w ∧ w ≤ 2⁻¹ ^ 54 * a ∧ rnd w = w)
    {q : ℝ} (q0 : 0 ≤ q) (q1 : q ≤ 1) (hc : ¬ close1 q) (np : List ℝ → ℝ → ℝ) :
    quantF binary64 np ds (a :: ws) q = .ok (np ds q) := by
  have W : Weights (a :: ws) := ⟨by simp, fun w hw => by
    rcases List.mem_cons.mp hw with rfl | hw
    · exact h0
    · exact (h w hw).1, fun w hw => by
    rcases List.mem_cons.mp hw with rfl | hw
    · exact ha
    · exact (h w hw).2.2⟩
  have e : cwF binary64 (a :: ws) = List.replicate (ws.length + 1) 0 := by
    show (a :: cumF binary64 a ws).map (fun c => binary64.sub c a) = _
    rw [cumF_absorbed ha h0 ws fun w hw => ⟨(h w hw).1.le, (h w hw).2.1⟩, ← List.replicate_succ, List.map_replicate]
    show List.replicate _ (rnd (a - a)) = _
    rw [sub_self, rnd_zero]
  have nT : ¬ 0 < (cwF binary64 (a :: ws)).getLastD 0 := by
    rw [e, List.getLastD_eq_getLast?, List.replicate_succ', List.getLast?_append]
    simp
  unfold quantF
  rw [if_neg W.ne, if_neg hc, if_neg fun k => nT ((C215_fallback W q0 q1 hc).mp k)]

/-- **C215** the property: the outcome in double precision is the exact one up to a hundredth of the largest value -/
def C215_statement : Prop :=
  ∀ (ds ws : List ℝ) (q x y : ℝ), Weights ws → ds.length = ws.length → ds.Pairwise (· ≤ ·) → (∀ d ∈ ds, |d| ≤ 2) → 0 ≤ q → q ≤ 1 →
    ¬ close1 q → core ds ws q = .ok x → quantF binary64 npQuantile ds ws q = .ok y → |y - x| ≤ 1 / 50

/-- **C215** is false: the weights 1, 2 ^ -60 and 3 * 2 ^ -60 of 0, 1, 2 give the median 4/3, in double precision 1 -/
theorem C215_refuted : ¬ C215_statement := by
  intro h
  have hc : ¬ close1 (1 / 2 : ℝ) := by unfold close1; norm_num [abs_of_neg]
  have f1 : rnd 1 = 1 := by have := rnd_whole (k := 1) (by norm_num); simpa using this
  have f2 : rnd (2⁻¹ ^ 60) = 2⁻¹ ^ 60 := by
    have := rnd_pow (-60)
    rw [show (2 : ℝ) ^ (-60 : ℤ) = 2⁻¹ ^ 60 by norm_num] at this
    exact this
  have f3 : rnd (3 * 2⁻¹ ^ 60) = 3 * 2⁻¹ ^ 60 := by
    have := rnd_float (k := 3) (-60) (by norm_num)
    rw [show (2 : ℝ) ^ (-60 : ℤ) = 2⁻¹ ^ 60 by norm_num] at this
    exact_mod_cast this
  have W : Weights [1, 2⁻¹ ^ 60, 3 * 2⁻¹ ^ 60] := ⟨by simp, by simp, by
    intro w hw
    simp only [List.mem_cons, List.not_mem_nil, or_false] at hw
    rcases hw with rfl | rfl | rfl
    · exact f1
    · exact f2
    · exact f3⟩
  have y := C215_ignored (ds := [0, 1, 2]) (ws := [2⁻¹ ^ 60, 3 * 2⁻¹ ^ 60]) f1 one_pos (by
    intro w hw
    simp only [List.mem_cons, List.not_mem_nil, or_false] at hw
    rcases hw with rfl | rfl
    · exact ⟨by positivity, by norm_num, f2⟩
    · exact ⟨by positivity, by norm_num, f3⟩) (q := 1 / 2) (by norm_num) (by norm_num) hc npQuantile
  have ny : npQuantile [(0 : ℝ), 1, 2] (1 / 2) = 1 := by
    unfold npQuantile
    norm_num
  have ce : cweights [(1 : ℝ), 2⁻¹ ^ 60, 3 * 2⁻¹ ^ 60] = [0, 2⁻¹ ^ 60, 4 * 2⁻¹ ^ 60] := by
    simp [cweights, cumsumFrom]
    norm_num
  have me : midPoint [(1 : ℝ), 2⁻¹ ^ 60, 3 * 2⁻¹ ^ 60] (1 / 2) = 2 * 2⁻¹ ^ 60 := by
    unfold midPoint
    rw [ce]
    norm_num
  have le : leftIdx [(1 : ℝ), 2⁻¹ ^ 60, 3 * 2⁻¹ ^ 60] (1 / 2) = 1 := by
    unfold leftIdx
    rw [ce, me, List.countP_cons, List.countP_cons, List.countP_cons, List.countP_nil]
    norm_num
  have x : core [(0 : ℝ), 1, 2] [1, 2⁻¹ ^ 60, 3 * 2⁻¹ ^ 60] (1 / 2) = .ok (4 / 3) := by
    unfold core
    rw [if_neg (by simp), if_neg hc, le, if_pos (by simp)]
    unfold interp
    rw [ce, me]
    congr 1
    norm_num
  have := h _ _ _ _ _ W (by simp) (by norm_num) (by
    intro d hd
    simp only [List.mem_cons, List.not_mem_nil, or_false] at hd
    rcases hd with rfl | rfl | rfl <;> norm_num) (by norm_num) (by norm_num) hc x y
  rw [ny] at this
  norm_num [abs_of_neg] at this

/-! ### error -/

/-- sums of nonnegative numbers: the error of one addition is at most `2 ^ -53` of a bound `M` of all sums -/
theorem cum_error {M : ℝ} (M0 : 0 ≤ M) : ∀ (ws : List ℝ) (acc acc' e : ℝ), (∀ w ∈ ws, 0 ≤ w) → 0 ≤ acc → 0 ≤ e → |acc' - acc| ≤ e → 0 ≤ acc' →
    acc + ws.sum + e + ws.length * (2⁻¹ ^ 53 * M) ≤ M → ∀ i < ws.length,
    |(cumF binary64 acc' ws).getD i 0 - (cumsumFrom acc ws).getD i 0| ≤ e + ws.length * (2⁻¹ ^ 53 * M)
  | [], _, _, _, _, _, _, _, _, _, _, hi => absurd hi (by simp)
  | w :: ws, acc, acc', e, hw, a0, e0, ha, a0', hM, i, hi => by
    have w0 := hw w List.mem_cons_self
    have hw' : ∀ x ∈ ws, 0 ≤ x := fun x hx => hw x (List.mem_cons_of_mem _ hx)
    have s0 : 0 ≤ ws.sum := List.sum_nonneg hw'
    simp only [List.sum_cons, List.length_cons] at hM ⊢
    push_cast at hM ⊢
    have v0 : 0 ≤ 2⁻¹ ^ 53 * M := by positivity
    have l0 : 0 ≤ (ws.length : ℝ) * (2⁻¹ ^ 53 * M) := by positivity
    have ha' := abs_le.mp ha
    have le : |acc' + w| ≤ M := by
      rw [abs_of_nonneg (by linarith)]
      linarith
    have r := abs_le.mp ((rnd_near (acc' + w)).trans (mul_le_mul_of_nonneg_left le (by positivity)))
    have h1 : |rnd (acc' + w) - (acc + w)| ≤ e + 2⁻¹ ^ 53 * M := by
      rw [abs_le]
      constructor <;> linarith
    show |(rnd (acc' + w) :: cumF binary64 (rnd (acc' + w)) ws).getD i 0 - ((acc + w) :: cumsumFrom (acc + w) ws).getD i 0| ≤ _
    cases i with
    | zero =>
      simp only [List.getD_cons_zero]
      linarith
    | succ i =>
      simp only [List.getD_cons_succ]
      have := cum_error M0 ws (acc + w) (rnd (acc' + w)) (e + 2⁻¹ ^ 53 * M) hw' (by linarith) (by linarith) h1
        (rnd_nonneg (by linarith)) (by linarith) i (by simpa using hi)
      linarith

/-- cumulative weights -/
theorem cw_error {ws : List ℝ} (h : Weights ws) (hn : (ws.length : ℝ) ≤ 2 ^ 40) (i : ℕ) (hi : i < ws.length) :
    |(cwF binary64 ws).getD i 0 - (cweights ws).getD i 0| ≤ (ws.length + 1) * (1.13e-16 * ws.sum) ∧
    0 ≤ (cwF binary64 ws).getD i 0 ∧ (cwF binary64 ws).getD i 0 ≤ 1.01 * ws.sum := by
  obtain ⟨hs, hz⟩ := cwF_sorted h
  have nn : 0 ≤ (cwF binary64 ws).getD i 0 := hz.symm.le.trans (getD_mono hs (Nat.zero_le _) (by rw [cwF_length]; exact hi))
  obtain ⟨w, ws, rfl⟩ := List.exists_cons_of_ne_nil h.ne
  have w0 := h.pos w List.mem_cons_self
  have hw : ∀ x ∈ ws, 0 ≤ x := fun x hx => (h.pos x (List.mem_cons_of_mem _ hx)).le
  have s0 : 0 ≤ ws.sum := List.sum_nonneg hw
  have T0 : 0 < (w :: ws).sum := by rw [List.sum_cons]; linarith
  set T := (w :: ws).sum with hT
  have eT : T = w + ws.sum := List.sum_cons
  rw [List.length_cons] at hn hi
  push_cast at hn
  have l0 : (0 : ℝ) ≤ ws.length := by positivity
  have v : (2⁻¹ : ℝ) ^ 53 * (1.001 * T) ≤ 1.12e-16 * T := by
    rw [← mul_assoc]; exact mul_le_mul_of_nonneg_right (by norm_num) T0.le
  have v0 : 0 ≤ (2⁻¹ : ℝ) ^ 53 * (1.001 * T) := by positivity
  have small : (ws.length : ℝ) * (2⁻¹ ^ 53 * (1.001 * T)) ≤ 2e-4 * T := by
    have a := mul_le_mul_of_nonneg_left v l0
    have b : (ws.length : ℝ) * (1.12e-16 * T) ≤ 2 ^ 40 * (1.12e-16 * T) :=
      mul_le_mul_of_nonneg_right (by linarith) (by positivity)
    have c : (2 : ℝ) ^ 40 * (1.12e-16 * T) ≤ 2e-4 * T := by
      rw [← mul_assoc]; exact mul_le_mul_of_nonneg_right (by norm_num) T0.le
    linarith
  -- the sums before the first weight is subtracted
  have key : |(w :: cumF binary64 w ws).getD i 0 - (w :: cumsumFrom w ws).getD i 0| ≤ ws.length * (1.12e-16 * T) ∧
      w ≤ (w :: cumF binary64 w ws).getD i 0 ∧ (w :: cumF binary64 w ws).getD i 0 ≤ 1.001 * T := by
    obtain ⟨k, -⟩ := cumF_sorted w0.le (h.float w List.mem_cons_self) ws hw
    have lo := getD_mono k (Nat.zero_le i) (by simpa [cumF_length] using hi)
    rw [List.getD_cons_zero] at lo
    have err : |(w :: cumF binary64 w ws).getD i 0 - (w :: cumsumFrom w ws).getD i 0| ≤ ws.length * (2⁻¹ ^ 53 * (1.001 * T)) := by
      cases i with
      | zero =>
        simp only [List.getD_cons_zero, sub_self, abs_zero]
        positivity
      | succ i =>
        simp only [List.getD_cons_succ]
        have := cum_error (M := 1.001 * T) (by positivity) ws w w 0 hw w0.le le_rfl (by simp) w0.le (by linarith) i (by omega)
        linarith
    have up : (w :: cumsumFrom w ws).getD i 0 ≤ T := by
      have gen : ∀ (ws : List ℝ) (acc : ℝ), (∀ x ∈ ws, 0 ≤ x) → ∀ i, i < ws.length + 1 →
          (acc :: cumsumFrom acc ws).getD i 0 ≤ acc + ws.sum := by
        intro ws
        induction ws with
        | nil => intro acc _ i hi; simp at hi; subst hi; simp
        | cons x ws ih =>
          intro acc hx i hi
          have x0 := hx x List.mem_cons_self
          have r0 : 0 ≤ ws.sum := List.sum_nonneg fun y hy => hx y (List.mem_cons_of_mem _ hy)
          rw [List.sum_cons]
          cases i with
          | zero => simp only [List.getD_cons_zero]; linarith
          | succ i =>
            have := ih (acc + x) (fun y hy => hx y (List.mem_cons_of_mem _ hy)) i (by simpa using hi)
            show ((acc + x) :: cumsumFrom (acc + x) ws).getD i 0 ≤ _
            linarith
      rw [eT]
      exact gen ws w hw i hi
    refine ⟨err.trans (mul_le_mul_of_nonneg_left v l0), lo, ?_⟩
    have := (abs_le.mp err).2
    linarith
  obtain ⟨k1, k2, k3⟩ := key
  have e1 : (cwF binary64 (w :: ws)).getD i 0 = rnd ((w :: cumF binary64 w ws).getD i 0 - w) := by
    show ((w :: cumF binary64 w ws).map fun c => rnd (c - w)).getD i 0 = _
    rw [List.getD_eq_getElem _ _ (by simpa [cumF_length] using hi), List.getElem_map,
      List.getD_eq_getElem _ _ (by simpa [cumF_length] using hi)]
  have e2 : (cweights (w :: ws)).getD i 0 = (w :: cumsumFrom w ws).getD i 0 - w := by
    unfold cweights
    rw [show cumsumFrom 0 (w :: ws) = w :: cumsumFrom w ws by simp [cumsumFrom]]
    rw [List.getD_eq_getElem _ _ (by simpa [cumsum_length] using hi), List.getElem_map,
      List.getD_eq_getElem _ _ (by simpa [cumsum_length] using hi)]
    rfl
  rw [e1] at nn ⊢
  rw [e2]
  generalize (w :: cumF binary64 w ws).getD i 0 = c at *
  generalize (w :: cumsumFrom w ws).getD i 0 = d at *
  have r := rnd_near (c - w)
  rw [abs_of_nonneg (by linarith : 0 ≤ c - w)] at r
  have r2 : (2⁻¹ : ℝ) ^ 53 * (c - w) ≤ 1.12e-16 * T := le_trans (mul_le_mul_of_nonneg_left (by linarith) (by positivity)) v
  have r := abs_le.mp (r.trans r2)
  have k1 := abs_le.mp k1
  have big : (ws.length : ℝ) * (1.12e-16 * T) + 1.12e-16 * T ≤ (((w :: ws).length : ℝ) + 1) * (1.13e-16 * T) := by
    rw [List.length_cons]
    push_cast
    have : 0 ≤ (ws.length : ℝ) * T := by positivity
    nlinarith
  refine ⟨?_, nn, by linarith⟩
  rw [abs_le]
  constructor <;> linarith

/-- the interpolation of line 443, up to rounding -/
theorem interp_error {a b c d m : ℝ} (hab : a ≤ b) (hc : c ≤ m) (hd : m < d) :
    |rnd (a + rnd (rnd (rnd (b - a) * rnd (m - c)) / rnd (d - c))) - (a + (b - a) * ((m - c) / (d - c)))| ≤
      1e-15 * (|a| + |b|) := by
  have small : ∀ x : ℝ, ∃ g, |g - 1| ≤ 1.2e-16 ∧ rnd x = x * g := fun x => by
    obtain ⟨g, h1, h2⟩ := rel (c := rnd x) (e := x) (u := 2⁻¹ ^ 53) (by positivity) (rnd_near x)
    exact ⟨g, h1.trans (by norm_num), h2⟩
  obtain ⟨g1, h1, e1⟩ := small (b - a)
  obtain ⟨g2, h2, e2⟩ := small (m - c)
  obtain ⟨g4, h4, e4⟩ := small (d - c)
  obtain ⟨g3, h3, e3⟩ := small (rnd (b - a) * rnd (m - c))
  obtain ⟨g5, h5, e5⟩ := small (rnd (rnd (b - a) * rnd (m - c)) / rnd (d - c))
  have p4 := near_pos h4 (by norm_num)
  have n1 := near_mul h1 h2 (by norm_num)
  have n2 := near_mul n1 h3 (by norm_num)
  have n3 := near_mul n2 (near_inv h4 (by norm_num)) (by norm_num)
  have n4 := near_mul n3 h5 (by norm_num)
  have ev : rnd (rnd (rnd (b - a) * rnd (m - c)) / rnd (d - c)) =
      (b - a) * ((m - c) / (d - c)) * (g1 * g2 * g3 * (1 / g4) * g5) := by
    rw [e5, e3, e1, e2, e4]
    have : d - c ≠ 0 := by linarith
    field_simp
  set G := g1 * g2 * g3 * (1 / g4) * g5
  have hG : |G - 1| ≤ 6.2e-16 := n4.trans (by norm_num)
  rw [ev]
  have t0 : 0 ≤ (m - c) / (d - c) := div_nonneg (by linarith) (by linarith)
  have t1 : (m - c) / (d - c) ≤ 1 := by rw [div_le_one (by linarith)]; linarith
  set t := (m - c) / (d - c)
  have ba : b - a ≤ |a| + |b| := by cases abs_cases a <;> cases abs_cases b <;> linarith
  have x0 : 0 ≤ (b - a) * t := mul_nonneg (by linarith) t0
  have x1 : (b - a) * t ≤ |a| + |b| := le_trans (mul_le_of_le_one_right (by linarith) t1) ba
  have k1 : |(b - a) * t * G - (b - a) * t| ≤ 6.2e-16 * (|a| + |b|) := by
    rw [show (b - a) * t * G - (b - a) * t = (b - a) * t * (G - 1) by ring, abs_mul, abs_of_nonneg x0, mul_comm]
    exact mul_le_mul hG x1 x0 (by norm_num)
  have S0 : 0 ≤ |a| + |b| := by positivity
  have k1' := abs_le.mp k1
  have k2 : |a + (b - a) * t * G| ≤ 3 * (|a| + |b|) := by
    rw [abs_le]
    constructor <;> cases abs_cases a <;> linarith [abs_nonneg b]
  have k3 := abs_le.mp ((rnd_near (a + (b - a) * t * G)).trans (mul_le_mul (by norm_num : (2⁻¹ : ℝ) ^ 53 ≤ 1.12e-16) k2
    (abs_nonneg _) (by norm_num)))
  rw [abs_le]
  constructor <;> linarith

theorem sum_small {n T : ℝ} (n0 : 0 ≤ n) (T0 : 0 ≤ T) :
    (n + 1) * (1.13e-16 * T) + (n + 2) * (1.2e-16 * T) ≤ (2 * n + 5) * (1.2e-16 * T) := by
  have := mul_nonneg n0 T0
  linarith

theorem one_small {n T : ℝ} (n0 : 0 ≤ n) (T0 : 0 ≤ T) : (n + 1) * (1.13e-16 * T) ≤ (2 * n + 5) * (1.2e-16 * T) := by
  have := mul_nonneg n0 T0
  linarith

/-- **C215** the error of the quantile: `S` bounds the steps between neighbouring values per weight, `D` the values -/
theorem C215_error_partial {ds ws : List ℝ} (h : Weights ws) (hl : ds.length = ws.length) (hs : ds.Pairwise (· ≤ ·)) {q x y S D : ℝ}
    (h0 : 0 ≤ q) (h1 : q ≤ 1) (hc : ¬ close1 q) (hn : (ws.length : ℝ) ≤ 2 ^ 40)
    (hS : ∀ i, i + 1 < ws.length → ds.getD (i + 1) 0 - ds.getD i 0 ≤ S * ws.getD (i + 1) 0) (hS0 : 0 ≤ S) (hD : ∀ d ∈ ds, |d| ≤ D)
    {np : List ℝ → ℝ → ℝ} (hnp : ds.getD 0 0 ≤ np ds q ∧ np ds q ≤ ds.getD (ws.length - 1) 0)
    (hx : core ds ws q = .ok x) (hy : quantF binary64 np ds ws q = .ok y) :
    |y - x| ≤ S * ((2 * ws.length + 5) * (1.2e-16 * ws.sum)) + 2e-15 * D := by
  obtain ⟨lt, le, m0, gt⟩ := leftF_facts h h0
  have N0 : 0 < ws.length := List.length_pos_of_ne_nil h.ne
  have T0 : 0 ≤ ws.sum := List.sum_nonneg fun w hw => (h.pos w hw).le
  have D0 : 0 ≤ D := (abs_nonneg _).trans (hD (ds.getD 0 0) (by
    rw [List.getD_eq_getElem _ _ (by omega)]; exact List.getElem_mem _))
  have gD : ∀ i < ws.length, |ds.getD i 0| ≤ D := fun i hi => hD _ (by
    rw [List.getD_eq_getElem _ _ (by omega)]; exact List.getElem_mem _)
  have cw := cw_error h hn
  have dmono : ∀ i, i + 1 < ws.length → ds.getD i 0 ≤ ds.getD (i + 1) 0 := fun i hi => getD_mono hs (Nat.le_succ i) (by omega)
  have Wmono : ∀ i, i + 1 < ws.length → (cweights ws).getD i 0 ≤ (cweights ws).getD (i + 1) 0 := fun i hi =>
    (cweights_strict ws h.pos (Nat.lt_succ_self i) hi).le
  have Wstep : ∀ i, i + 1 < ws.length →
      ds.getD (i + 1) 0 - ds.getD i 0 ≤ S * ((cweights ws).getD (i + 1) 0 - (cweights ws).getD i 0) := fun i hi => by
    rw [cweights_step ws i hi]; exact hS i hi
  have lip := fun {l k : ℕ} (hl) (hk) {t f : ℝ} => graph_lip (W := fun i => (cweights ws).getD i 0) (d := fun i => ds.getD i 0)
    dmono Wmono Wstep (l := l) (k := k) hl hk (t := t) (f := f)
  have n0 : (0 : ℝ) ≤ ws.length := by positivity
  -- the target of the search
  have V1 := cw (ws.length - 1) (by omega)
  have len := cwF_length ws
  have hne : cwF binary64 ws ≠ [] := fun e => by rw [e] at len; simp at len; omega
  have eT := getLastD_eq _ hne
  rw [len] at eT
  have hm : |midF binary64 ws q - midPoint ws q| ≤ (ws.length + 2) * (1.2e-16 * ws.sum) := by
    rw [midPoint_eq ws h.ne]
    show |rnd (q * (cwF binary64 ws).getLastD 0) - _| ≤ _
    rw [eT]
    obtain ⟨a1, a2, a3⟩ := V1
    generalize (cwF binary64 ws).getD (ws.length - 1) 0 = v at *
    generalize (cweights ws).getD (ws.length - 1) 0 = w at *
    have r := rnd_near (q * v)
    have qv : q * v ≤ 1.01 * ws.sum := (mul_le_of_le_one_left a2 h1).trans a3
    rw [abs_of_nonneg (mul_nonneg h0 a2)] at r
    have r := abs_le.mp (r.trans (mul_le_mul (by norm_num : (2⁻¹ : ℝ) ^ 53 ≤ 1.12e-16) qv (mul_nonneg h0 a2) (by norm_num)))
    have k : |q * v - q * w| ≤ (ws.length + 1) * (1.13e-16 * ws.sum) := by
      rw [← mul_sub, abs_mul, abs_of_nonneg h0]
      exact (mul_le_of_le_one_left (abs_nonneg _) h1).trans a1
    have k := abs_le.mp k
    have nT := mul_nonneg n0 T0
    rw [abs_le]
    constructor <;> linarith
  have R0 : 0 ≤ S * ((2 * ws.length + 5) * (1.2e-16 * ws.sum)) := by positivity
  unfold quantF at hy
  rw [if_neg h.ne, if_neg hc] at hy
  rcases core_cases ds ws hl h.ne h.pos q h0 h1 with ⟨c, e⟩ | ⟨c, k, f, f0, f1, ef, e⟩ | ⟨c, k, e⟩
  · exact absurd c hc
  · rw [hx] at e
    simp only [Except.ok.injEq] at e
    have hk := cweights_strict ws h.pos (Nat.lt_succ_self (leftIdx ws q)) k
    have em : (cweights ws).getD (leftIdx ws q) 0 +
        ((cweights ws).getD (leftIdx ws q + 1) 0 - (cweights ws).getD (leftIdx ws q) 0) * f = midPoint ws q := by
      rw [ef]
      have : (cweights ws).getD (leftIdx ws q + 1) 0 - (cweights ws).getD (leftIdx ws q) 0 ≠ 0 := by
        have : leftIdx ws q + 1 = (leftIdx ws q).succ := rfl
        linarith
      field_simp
      ring
    by_cases hlt : leftF binary64 ws q + 1 < ws.length
    · rw [if_pos hlt] at hy
      simp only [Except.ok.injEq] at hy
      have g := gt _ (Nat.lt_succ_self _) hlt
      set l := leftF binary64 ws q
      have ie := interp_error (dmono l hlt) le g
      have hy' : y = rnd (ds.getD l 0 + rnd (rnd (rnd (ds.getD (l + 1) 0 - ds.getD l 0) *
          rnd (midF binary64 ws q - (cwF binary64 ws).getD l 0)) /
          rnd ((cwF binary64 ws).getD (l + 1) 0 - (cwF binary64 ws).getD l 0))) := hy.symm
      rw [show l.succ = l + 1 from rfl] at ie g
      rw [← hy'] at ie
      set t := (midF binary64 ws q - (cwF binary64 ws).getD l 0) / ((cwF binary64 ws).getD (l + 1) 0 - (cwF binary64 ws).getD l 0)
        with ht
      have t0 : 0 ≤ t := div_nonneg (by linarith) (by linarith)
      have t1 : t ≤ 1 := by rw [ht, div_le_one (by linarith)]; linarith
      have emF : (cwF binary64 ws).getD l 0 + ((cwF binary64 ws).getD (l + 1) 0 - (cwF binary64 ws).getD l 0) * t =
          midF binary64 ws q := by
        rw [ht]
        have : (cwF binary64 ws).getD (l + 1) 0 - (cwF binary64 ws).getD l 0 ≠ 0 := by linarith
        field_simp
        ring
      have L := lip hlt k t0 t1 f0 f1.le
      simp only [em, ← e] at L
      have c1 := abs_le.mp (cw l (by omega)).1
      have c2 := abs_le.mp (cw (l + 1) hlt).1
      have hm' := abs_le.mp hm
      set η := ((ws.length : ℝ) + 1) * (1.13e-16 * ws.sum)
      have pos : |(cweights ws).getD l 0 + ((cweights ws).getD (l + 1) 0 - (cweights ws).getD l 0) * t - midPoint ws q| ≤
          η + (ws.length + 2) * (1.2e-16 * ws.sum) := by
        have u1 := mul_le_mul_of_nonneg_right c1.1 (sub_nonneg.mpr t1)
        have u2 := mul_le_mul_of_nonneg_right c1.2 (sub_nonneg.mpr t1)
        have u3 := mul_le_mul_of_nonneg_right c2.1 t0
        have u4 := mul_le_mul_of_nonneg_right c2.2 t0
        rw [abs_le]
        constructor <;> linarith
      have L2 := L.trans (mul_le_mul_of_nonneg_left pos hS0)
      have big : η + (ws.length + 2) * (1.2e-16 * ws.sum) ≤ (2 * ws.length + 5) * (1.2e-16 * ws.sum) := by
        have nT := mul_nonneg n0 T0
        exact sum_small n0 T0
      have L3 := L2.trans (mul_le_mul_of_nonneg_left big hS0)
      have d1 := gD l (by omega)
      have d2 := gD (l + 1) hlt
      have ie' := abs_le.mp ie
      have L3 := abs_le.mp L3
      rw [abs_le]
      constructor <;> linarith
    · rw [if_neg hlt] at hy
      simp only [Except.ok.injEq] at hy
      rw [← hy]
      have T1 : ¬ 0 < (cwF binary64 ws).getLastD 0 := fun c => hlt ((C215_fallback h h0 h1 hc).mpr c)
      rw [eT] at T1
      obtain ⟨r, hr, b1, b2, b3⟩ := core_between ds ws hl h.ne h.pos hs q h0 h1
      rw [hx] at hr
      simp only [Except.ok.injEq] at hr
      subst hr
      have b0 : ds.getD 0 0 ≤ ds.getD (leftIdx ws q) 0 := getD_mono hs (Nat.zero_le _) (by omega)
      have L := lip (l := 0) (k := ws.length - 2) (by omega) (by omega) (t := 0) (f := 1) le_rfl zero_le_one zero_le_one le_rfl
      rw [show ws.length - 2 + 1 = ws.length - 1 by omega] at L
      simp only [mul_zero, add_zero, mul_one, add_sub_cancel] at L
      have z : (cweights ws).getD 0 0 = 0 := by
        obtain ⟨w, ws', rfl⟩ := List.exists_cons_of_ne_nil h.ne
        exact cweights_zero w ws'
      rw [z, zero_sub, abs_neg] at L
      have W0 : 0 ≤ (cweights ws).getD (ws.length - 1) 0 := by
        have := getD_mono ((cweights_sorted _ h.pos).imp le_of_lt) (Nat.zero_le (ws.length - 1)) (by rw [cweights_length]; omega)
        rwa [z] at this
      have c1 := (abs_le.mp V1.1).1
      have W1 : |(cweights ws).getD (ws.length - 1) 0| ≤ (2 * ws.length + 5) * (1.2e-16 * ws.sum) := by
        rw [abs_of_nonneg W0]
        exact le_trans (by linarith) (one_small n0 T0)
      have L := abs_le.mp (L.trans (mul_le_mul_of_nonneg_left W1 hS0))
      rw [abs_le]
      constructor <;> linarith [hnp.1, hnp.2, L.1]
  · rw [hx] at e
    simp only [Except.ok.injEq] at e
    rw [if_neg (by omega)] at hy
    simp only [Except.ok.injEq] at hy
    rw [k] at hnp
    have : y = x := by rw [← hy, e]; exact le_antisymm hnp.2 hnp.1
    rw [this, sub_self, abs_zero]
    positivity

/-- the hypotheses are met: 0, 1, 2 with the weights 1, 1, 1, steps of at most 1 per weight -/
example : Weights [1, 1, 1] ∧ [(0 : ℝ), 1, 2].Pairwise (· ≤ ·) ∧ ¬ close1 (1 / 2 : ℝ) ∧
    (∀ i, i + 1 < 3 → [(0 : ℝ), 1, 2].getD (i + 1) 0 - [(0 : ℝ), 1, 2].getD i 0 ≤ 1 * [(1 : ℝ), 1, 1].getD (i + 1) 0) ∧
    (0 ≤ npQuantile [(0 : ℝ), 1, 2] (1 / 2) ∧ npQuantile [(0 : ℝ), 1, 2] (1 / 2) ≤ 2) := by
  have f1 : rnd 1 = 1 := by have := rnd_whole (k := 1) (by norm_num); simpa using this
  refine ⟨⟨by simp, by simp, by simpa using f1⟩, by norm_num, by unfold close1; norm_num [abs_of_neg], ?_, ?_⟩
  · intro i hi
    have : i = 0 ∨ i = 1 := by omega
    rcases this with rfl | rfl <;> norm_num
  · unfold npQuantile
    norm_num

end Verif.Fp
