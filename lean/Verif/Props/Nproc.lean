import Verif.Spec.Nproc
import Verif.Lemmas.Nproc
/-! # C01: the process cap behaves like a single optional cell -/
namespace Verif.Nproc
open Verif.Py

/-- C01. After any history of `set_nproc`/`unset_nproc` calls from any initial environment, `get_nproc(k)` returns an
explicit argument `k` as is, and `get_nproc()` returns the cap decided by the last call with an effect, the initial
environment's number when no call had an effect, and the cpu count when there is no cap. -/
theorem C01_get_after_history (cpu : Int) (env : Env) (h : List Op) (arg : Option Int) :
    getNproc cpu (run env h) arg = arg.getD ((Spec.capAfter (env.bind pyInt) h).getD cpu) := by
  cases arg with
  | some k => rfl
  | none =>
  simp only [Option.getD_none]
  induction h using List.reverseRecOn with
  | nil => cases env <;> simp [run, Spec.capAfter, getNproc]
           rename_i s; cases pyInt s <;> rfl
  | append_singleton h op ih =>
    rw [run, List.foldl_append]
    simp only [List.foldl_cons, List.foldl_nil, Spec.capAfter, List.reverse_append, List.reverse_singleton,
      List.singleton_append, List.findSome?_cons]
    rcases op with a | _
    · rcases a with _ | n | _
      · simpa [step, setNproc, Spec.effect, Spec.capAfter, run] using ih
      · by_cases hn : n < 1
        · have : ¬ (1 ≤ n) := by omega
          simp [step, setNproc, Spec.effect, hn, this, unsetNproc, getNproc]
        · have h1 : 1 ≤ n := by omega
          simp [step, setNproc, Spec.effect, hn, h1, getNproc, pyInt_intStr]
      · simpa [step, setNproc, Spec.effect, Spec.capAfter, run] using ih
    · simp [step, Spec.effect, unsetNproc, getNproc]

/-- C01. `set_nproc` raises exactly for arguments that are neither `None` nor an `int`, with `ValueError`. -/
theorem C01_rejects_exactly_non_int (env : Env) (a : Arg) :
    (∃ e, setNproc env a = .error e) ↔ a = .other := by
  rcases a with _ | n | _
  · simp [setNproc]
  · by_cases hn : n < 1 <;> simp [setNproc, hn]
  · simp [setNproc]

/-- C01. What the environment holds is valid for child processes: after any history that set a cap last, the text in the
environment reads back as that cap (so a child process inheriting the environment sees the same cap). -/
theorem C01_environment_text_is_the_cap (env : Env) (h : List Op) (n : Int) (hn : 1 ≤ n) :
    ∃ s, run env (h ++ [.set (.int n)]) = some s ∧ pyInt s = some n := by
  refine ⟨intStr n, ?_, pyInt_intStr n⟩
  have : ¬ n < 1 := by omega
  simp [run, step, setNproc, this]

/-- C01. Calls rejected or passed `None` are invisible: deleting them from the history changes nothing. -/
theorem C01_ineffective_calls_invisible (env : Env) (h : List Op) :
    run env h = run env (h.filter (fun o => (Spec.effect o).isSome)) := by
  induction h using List.reverseRecOn with
  | nil => rfl
  | append_singleton h op ih =>
    rw [List.filter_append, run, List.foldl_append, run, List.foldl_append]
    rw [run, run] at ih
    rw [ih]
    rcases op with a | _
    · rcases a with _ | n | _
      · simp [Spec.effect, step, setNproc]
      · by_cases hn : 1 ≤ n <;> simp [Spec.effect, hn]
      · simp [Spec.effect, step, setNproc]
    · simp [Spec.effect]

/-! ## The text of the environment variable -/

/-- text of a list of decimal digits -/
def Spec.dg (ds : List Nat) : Str := ds.map fun d => Char.ofNat (48 + d)

/-- number of a list of decimal digits -/
def Spec.value (ds : List Nat) : Nat := ds.foldl (fun a d => 10 * a + d) 0

/-- `t` is digits, then any number of groups of one underscore and digits; `ds` are all its digits -/
def Spec.Numeral (t : Str) (ds : List Nat) : Prop :=
  ∃ (g : List Nat) (gs : List (List Nat)), g ≠ [] ∧ (∀ h ∈ gs, h ≠ []) ∧ ds = g ++ gs.flatten ∧ (∀ d ∈ ds, d < 10) ∧
    t = Spec.dg g ++ (gs.map fun h => '_' :: Spec.dg h).flatten

theorem digit_of_isDig {c : Char} (h : isDig c = true) : ∃ d < 10, c = Char.ofNat (48 + d) ∧ c.toNat - 48 = d := by
  simp only [isDig, Bool.and_eq_true, decide_eq_true_eq] at h
  refine ⟨c.toNat - 48, by omega, ?_, rfl⟩
  rw [show 48 + (c.toNat - 48) = c.toNat by omega, Char.ofNat_toNat]

theorem parse_dg (g : List Nat) (hg : ∀ d ∈ g, d < 10) (prev : Bool) (acc : Nat) (t : Str) (hne : g ≠ [] ∨ prev = true) :
    parseDigits prev acc (Spec.dg g ++ t) = parseDigits true (g.foldl (fun a d => 10 * a + d) acc) t := by
  induction g generalizing prev acc with
  | nil => simp at hne; subst hne; rfl
  | cons d g ih =>
    have hd := hg d (by simp)
    simp only [Spec.dg, List.map_cons, List.cons_append, List.foldl_cons, parseDigits, isDig_digit hd, if_true,
      toNat_digit hd]
    have := ih (fun x hx => hg x (by simp [hx])) true (10 * acc + d) (by simp)
    simpa [Spec.dg] using this

theorem parse_groups (gs : List (List Nat)) (h1 : ∀ h ∈ gs, h ≠ []) (h2 : ∀ d ∈ gs.flatten, d < 10) (acc : Nat) :
    parseDigits true acc (gs.map fun h => '_' :: Spec.dg h).flatten =
      some (gs.flatten.foldl (fun a d => 10 * a + d) acc) := by
  induction gs generalizing acc with
  | nil => simp [parseDigits]
  | cons g gs ih =>
    simp only [List.map_cons, List.flatten_cons, List.cons_append, List.foldl_append]
    have h3 : parseDigits true acc ('_' :: (Spec.dg g ++ (gs.map fun h => '_' :: Spec.dg h).flatten)) =
        parseDigits false acc (Spec.dg g ++ (gs.map fun h => '_' :: Spec.dg h).flatten) := by
      simp [parseDigits, isDig]
    rw [h3, parse_dg g (fun d hd => h2 d (by simp [hd])) false acc _ (Or.inl (h1 g (by simp)))]
    exact ih (fun h hh => h1 h (by simp [hh])) (fun d hd => h2 d (by
      rw [List.flatten_cons, List.mem_append]; exact Or.inr hd)) _

theorem parse_complete (t : Str) (prev : Bool) (acc n : Nat) (h : parseDigits prev acc t = some n) :
    ∃ (g : List Nat) (gs : List (List Nat)), (g ≠ [] ∨ prev = true) ∧ (∀ h ∈ gs, h ≠ []) ∧ (∀ d ∈ g ++ gs.flatten, d < 10) ∧
      t = Spec.dg g ++ (gs.map fun h => '_' :: Spec.dg h).flatten ∧
      n = (g ++ gs.flatten).foldl (fun a d => 10 * a + d) acc := by
  induction t generalizing prev acc with
  | nil =>
    simp only [parseDigits] at h
    split at h
    · rename_i hp
      simp at h
      exact ⟨[], [], Or.inr hp, by simp, by simp, by simp [Spec.dg], by simp [h]⟩
    · simp at h
  | cons c cs ih =>
    simp only [parseDigits] at h
    split at h
    · rename_i hd
      obtain ⟨d, hd1, hd2, hd3⟩ := digit_of_isDig hd
      obtain ⟨g, gs, -, k2, k3, k4, k5⟩ := ih _ _ h
      refine ⟨d :: g, gs, Or.inl (by simp), k2, ?_, ?_, ?_⟩
      · intro x hx
        rcases List.mem_cons.1 hx with rfl | hx
        · exact hd1
        · exact k3 x hx
      · rw [k4, hd2]; rfl
      · rw [k5, hd3]; rfl
    · split at h
      · rename_i hd hc
        obtain ⟨rfl, hp⟩ := hc
        obtain ⟨g, gs, k1, k2, k3, k4, k5⟩ := ih _ _ h
        simp at k1
        refine ⟨[], g :: gs, Or.inr hp, ?_, by simpa using k3, ?_, by simpa using k5⟩
        · intro x hx
          rcases List.mem_cons.1 hx with rfl | hx
          · exact k1
          · exact k2 x hx
        · rw [k4]; simp [Spec.dg]
      · simp at h

theorem parse_iff (t : Str) (n : Nat) : parseDigits false 0 t = some n ↔ ∃ ds, Spec.Numeral t ds ∧ n = Spec.value ds := by
  constructor
  · intro h
    obtain ⟨g, gs, k1, k2, k3, k4, k5⟩ := parse_complete t false 0 n h
    simp at k1
    exact ⟨_, ⟨g, gs, k1, k2, rfl, k3, k4⟩, k5⟩
  · rintro ⟨ds, ⟨g, gs, k1, k2, rfl, k3, rfl⟩, rfl⟩
    rw [parse_dg g (fun d hd => k3 d (by simp [hd])) false 0 _ (Or.inl k1),
      parse_groups gs k2 (fun d hd => k3 d (by rw [List.mem_append]; exact Or.inr hd)), Spec.value, List.foldl_append]

/-- **C01** a cap set from outside: exactly the texts of an optional sign and digits in groups joined by single
underscores, with white space around, are read as numbers; for all others the number of processors is used -/
theorem C01_text (cpu : Int) (s : Str) :
    (∀ ds, Spec.Numeral (strip s) ds → getNproc cpu (some s) none = Spec.value ds) ∧
    (∀ t ds, strip s = '+' :: t → Spec.Numeral t ds → getNproc cpu (some s) none = Spec.value ds) ∧
    (∀ t ds, strip s = '-' :: t → Spec.Numeral t ds → getNproc cpu (some s) none = -(Spec.value ds : Int)) ∧
    ((∀ t ds, Spec.Numeral t ds → strip s ≠ t ∧ strip s ≠ '+' :: t ∧ strip s ≠ '-' :: t) →
      getNproc cpu (some s) none = cpu) := by
  have num : ∀ t ds, Spec.Numeral t ds → parseDigits false 0 t = some (Spec.value ds) :=
    fun t ds h => (parse_iff t _).2 ⟨ds, h, rfl⟩
  have hd : ∀ t ds, Spec.Numeral t ds → ∃ c r, t = c :: r ∧ isDig c = true := by
    rintro t ds ⟨g, gs, k1, -, rfl, k3, rfl⟩
    cases g with
    | nil => exact absurd rfl k1
    | cons d g => exact ⟨_, _, rfl, isDig_digit (k3 d (by simp))⟩
  refine ⟨?_, ?_, ?_, ?_⟩
  · intro ds h
    obtain ⟨c, r, hc, hdc⟩ := hd _ ds h
    have h1 : c ≠ '-' := by rintro rfl; revert hdc; decide
    have h2 : c ≠ '+' := by rintro rfl; revert hdc; decide
    have hp := num _ _ h
    have hi : pyInt s = some (Spec.value ds : Int) := by
      simp only [pyInt]
      rw [hc] at hp ⊢
      split
      · rename_i r heq; simp at heq; exact absurd heq.1 h1
      · rename_i r heq; simp at heq; exact absurd heq.1 h2
      · simp [hp]
    simp only [getNproc, hi]
  · intro t ds hs h
    simp [getNproc, pyInt, hs, num t ds h]
  · intro t ds hs h
    simp [getNproc, pyInt, hs, num t ds h]
  · intro h
    have none_of : ∀ t, (∀ ds, ¬ Spec.Numeral t ds) → parseDigits false 0 t = none := by
      intro t ht
      cases hp : parseDigits false 0 t with
      | none => rfl
      | some n =>
        obtain ⟨ds, hds, -⟩ := (parse_iff t n).1 hp
        exact absurd hds (ht ds)
    simp only [getNproc, pyInt]
    split
    · rename_i n hn
      exfalso
      split at hn
      · rename_i r heq
        rw [none_of r (fun ds hds => (h r ds hds).2.2 heq)] at hn; simp at hn
      · rename_i r heq
        rw [none_of r (fun ds hds => (h r ds hds).2.1 heq)] at hn; simp at hn
      · rw [none_of _ (fun ds hds => (h _ ds hds).1 rfl)] at hn; simp at hn
    · rfl

-- " +1_000 " is read as 1000; "1__0" and "4.0" are not read and the number of processors is used
example : Spec.Numeral "1_000".toList [1, 0, 0, 0] := ⟨[1], [[0, 0, 0]], by simp, by simp, by simp, by simp, by decide⟩
example : getNproc 8 (some " +1_000 ".toList) none = 1000 := by decide
example : getNproc 8 (some "1__0".toList) none = 8 ∧ getNproc 8 (some "4.0".toList) none = 8 := by decide

/-- A cap set from outside is not checked: `RAYTOOLS_PROC_CAP=0` gives a pool without processes, which cannot be made. -/
theorem C01_outside_cap_not_checked (cpu : Int) : getNproc cpu (some "0".toList) none = 0 ∧
    getNproc cpu (some "-3".toList) none = -3 := ⟨by rfl, by rfl⟩

-- a non-trivial history: set 4, rejected call, ignored call -> 4; then cleared by 0 -> cpu count (8)
example : getNproc 8 (run (some "junk".toList) [.set (.int 4), .set .other, .set .none]) none = 4 := by decide
example : getNproc 8 (run none [.set (.int 4), .set (.int 0)]) none = 8 := by decide
example : Spec.capAfter none [.set (.int 4), .unset, .set (.int 12), .set .other] = some 12 := by decide

end Verif.Nproc
