import Verif.Model.Pipes
import Mathlib.Tactic.Ring
import Mathlib.Tactic.Linarith
/-!
# Writing and reading images through pipes (C176, C177)
-/
namespace Verif.Pipes
variable {β : Type}

/-! ## what the programs print, on their own -/

/-- what a program prints from a state on, given the rest of its input -/
def Spec.go (F : Filter β) : F.σ → List β → List β
  | s, [] => F.bye s
  | s, b :: l => (F.on s b).2 ++ Spec.go F (F.on s b).1 l

/-- what a program makes of an input -/
def Spec.through (F : Filter β) (l : List β) : List β := F.greet ++ Spec.go F F.start l

/-- every process gets its turn again and again -/
def Spec.Fair {W : Type} (f : ℕ → W) : Prop := ∀ w t, ∃ t', t ≤ t' ∧ f t' = w

open Spec (go through Fair)

/-! ## writing -/

/-- the output of a program that is told to read `k` bytes: it stops where the input ends too early -/
def feed (F : Filter β) : ℕ → F.σ → List β → List β
  | 0, s, _ => F.bye s
  | _ + 1, _, [] => []
  | k + 1, s, b :: l => (F.on s b).2 ++ feed F k (F.on s b).1 l

theorem feed_go (F : Filter β) : ∀ (l : List β) (s : F.σ) (r : List β), feed F l.length s (l ++ r) = go F s l
  | [], s, _ => by simp [feed, go]
  | b :: l, s, r => by simp [feed, go, feed_go F l]

/-- what python still has to write -/
def Par.todo : Par β → List β
  | .send r => r
  | _ => []

def Par.rank : Par β → ℕ
  | .send _ => 2
  | .wait => 1
  | _ => 0

/-- what `pvalue` is still going to print -/
def pfut (F : Filter β) : Take β F.σ → List β → List β
  | .reading s k pend, l => pend ++ feed F k s l
  | .closing pend, _ => pend
  | .gone, _ => []

def Take.rank {σ : Type} : Take β σ → ℕ
  | .reading _ _ _ => 2
  | .closing _ => 1
  | .gone => 0

/-- how many bytes `pvalue` still wants -/
def Take.wants {σ : Type} : Take β σ → ℕ
  | .reading _ k _ => k
  | _ => 0

/-- what `getinfo` is still going to print -/
def qfut (G : Filter β) : Copy β G.σ → List β → List β
  | .reading s pend, l => pend ++ go G s l
  | .closing pend, _ => pend
  | .gone, _ => []

def Copy.rank {σ : Type} : Copy β σ → ℕ
  | .reading _ _ => 2
  | .closing _ => 1
  | .gone => 0

variable {n : Net β}

def Cfg.pf (c : Cfg n) : List β := pfut n.F c.p (c.inp ++ c.par.todo)
def Cfg.qf (c : Cfg n) : List β := qfut n.G c.q (c.mid ++ c.pf)

/-- what the file is going to hold -/
def Cfg.total (c : Cfg n) : List β := if n.hdr then c.out ++ c.qf else c.out ++ c.pf

/-- bytes that have not reached `pvalue` -/
def Cfg.avail (c : Cfg n) : ℕ := c.inp.length + c.par.todo.length

/-- work left -/
def Cfg.mu (c : Cfg n) : ℕ :=
  c.par.todo.length + c.avail + c.pf.length + (c.mid.length + c.pf.length) + c.qf.length + c.par.rank + c.p.rank + c.q.rank

/-- what holds of every state that is reached -/
structure Inv (c : Cfg n) : Prop where
  shut : c.shut = true → c.par.todo = []
  open_ : c.par = .wait → n.hdr = false → c.shut = true
  ends : n.hdr = true → (∀ s pend, c.q ≠ .reading s pend) → c.p = .gone
  over : c.par = .done → n.hdr = true → c.q = .gone
  over' : c.par = .done → n.hdr = false → c.p = .gone
  alone : n.hdr = false → c.q = .gone ∧ c.mid = []
  last : n.hdr = true → (∀ s pend, c.q ≠ .reading s pend) → c.mid = []
  quiet : n.hdr = true → c.shut = false

theorem inv_start (n : Net β) (data : List β) : Inv (start n data) where
  shut := by simp [start]
  open_ := by simp [start]
  ends := by intro h; simp [start, h]
  over := by simp [start]
  over' := by simp [start]
  alone := by intro h; simp [start, h]
  last := by simp [start]
  quiet := by simp [start]

theorem isGone_iff {σ : Type} (p : Take β σ) : p.isGone = true ↔ p = .gone := by cases p <;> simp [Take.isGone]
theorem isGone_iff' {σ : Type} (p : Copy β σ) : p.isGone = true ↔ p = .gone := by cases p <;> simp [Copy.isGone]

theorem stepPar_ok {c c' : Cfg n} (h : Inv c) (hs : stepPar n c = some c') :
    Inv c' ∧ c'.total = c.total ∧ c'.mu < c.mu := by
  obtain ⟨par, inp, shut, p, mid, q, out⟩ := c
  obtain ⟨h1, h2, h3, h4, h5, h6, h7, h8⟩ := h
  unfold stepPar at hs
  cases par with
  | send l =>
    cases l with
    | nil =>
      simp only [Option.some.injEq] at hs
      subst hs
      refine ⟨⟨by simp [Par.todo], by simp, h3, by simp, by simp, h6, h7, fun hh => by simp [hh]⟩, rfl, ?_⟩
      simp only [Cfg.mu, Cfg.avail, Cfg.pf, Cfg.qf, Par.todo, Par.rank]
      omega
    | cons b r =>
      simp only at hs
      split_ifs at hs with hg hc
      · simp only [Option.some.injEq] at hs
        subst hs
        rw [isGone_iff] at hg
        subst hg
        refine ⟨⟨by simp [Par.todo], by simp, h3, by simp, by simp, h6, h7, h8⟩, rfl, ?_⟩
        simp only [Cfg.mu, Cfg.avail, Cfg.pf, Cfg.qf, Par.todo, Par.rank, pfut, List.length_cons, List.length_nil]
        omega
      · simp only [Option.some.injEq] at hs
        subst hs
        have e : (inp ++ [b]) ++ r = inp ++ b :: r := by simp
        refine ⟨⟨?_, by simp, h3, by simp, by simp, h6, h7, h8⟩, ?_, ?_⟩
        · intro hsh
          have := h1 hsh
          simp [Par.todo] at this
        · simp only [Cfg.total, Cfg.pf, Cfg.qf, Par.todo, e]
        · simp only [Cfg.mu, Cfg.avail, Cfg.pf, Cfg.qf, Par.todo, Par.rank, e, List.length_append, List.length_cons, List.length_nil]
          omega
  | wait =>
    by_cases hg : (if n.hdr then q.isGone else p.isGone) = true
    · simp only [hg, if_true, Option.some.injEq] at hs
      subst hs
      refine ⟨⟨by simp [Par.todo], by simp, h3, ?_, ?_, h6, h7, h8⟩, rfl, ?_⟩
      · intro _ hh
        rw [hh, if_pos rfl] at hg
        exact (isGone_iff' _).1 hg
      · intro _ hh
        rw [hh, if_neg (by simp)] at hg
        exact (isGone_iff _).1 hg
      · simp only [Cfg.mu, Cfg.avail, Cfg.pf, Cfg.qf, Par.todo, Par.rank]
        omega
    · simp only [hg] at hs
      exact absurd hs (by simp)
  | done => exact absurd hs (by simp)
  | broken => exact absurd hs (by simp)

/-- `pvalue` prints a byte -/
theorem emit_ok {c c' : Cfg n} {b : β} {p' : Take β n.F.σ} (h : Inv c) (hp : c.p ≠ .gone) (hp' : p' ≠ .gone)
    (hr : p'.rank = c.p.rank) (hf : ∀ l, pfut n.F c.p l = b :: pfut n.F p' l) (hs : emit n c b p' = some c') :
    Inv c' ∧ c'.total = c.total ∧ c'.mu < c.mu := by
  obtain ⟨par, inp, shut, p, mid, q, out⟩ := c
  obtain ⟨h1, h2, h3, h4, h5, h6, h7, h8⟩ := h
  simp only at *
  unfold emit at hs
  cases hh : n.hdr with
  | true =>
    simp only [hh, if_true] at hs
    split_ifs at hs with hc
    simp only [Option.some.injEq] at hs
    subst hs
    have hq : ¬ ∀ s pend, q ≠ .reading s pend := fun hq => hp (h3 hh hq)
    refine ⟨⟨h1, h2, fun _ x => absurd x hq, h4, fun _ x => by simp [hh] at x, fun x => by simp [hh] at x,
      fun _ x => absurd x hq, h8⟩, ?_, ?_⟩
    · simp only [Cfg.total, Cfg.pf, Cfg.qf, hh, if_true, hf]
      simp
    · simp only [Cfg.mu, Cfg.avail, Cfg.pf, Cfg.qf, hf, hr, List.length_cons, List.length_append, List.length_nil,
        List.append_assoc, List.singleton_append]
      omega
  | false =>
    simp only [hh, Bool.false_eq_true, if_false, Option.some.injEq] at hs
    subst hs
    obtain ⟨rfl, rfl⟩ := h6 hh
    refine ⟨⟨h1, h2, fun x => by simp [hh] at x, h4, ?_, h6, fun x => by simp [hh] at x, h8⟩, ?_, ?_⟩
    · intro hd _
      exact absurd (h5 hd hh) hp
    · simp only [Cfg.total, Cfg.pf, hh, Bool.false_eq_true, if_false, hf]
      simp
    · simp only [Cfg.mu, Cfg.avail, Cfg.pf, Cfg.qf, qfut, hf, hr, List.length_cons, List.length_nil]
      omega

theorem stepP_ok {c c' : Cfg n} (h : Inv c) (hs : stepP n c = some c') :
    Inv c' ∧ c'.total = c.total ∧ c'.mu < c.mu := by
  have h0 := h
  obtain ⟨par, inp, shut, p, mid, q, out⟩ := c
  obtain ⟨h1, h2, h3, h4, h5, h6, h7, h8⟩ := h
  unfold stepP at hs
  cases p with
  | gone => exact absurd hs (by simp)
  | closing l =>
    cases l with
    | nil =>
      simp only [Option.some.injEq] at hs
      subst hs
      refine ⟨⟨h1, h2, fun _ _ => rfl, h4, fun _ _ => rfl, h6, h7, h8⟩, rfl, ?_⟩
      simp only [Cfg.mu, Cfg.avail, Cfg.pf, Cfg.qf, pfut, Take.rank]
      omega
    | cons b r =>
      exact emit_ok (p' := .closing r) h0 (by simp) (by simp) rfl (fun l => by simp [pfut]) hs
  | reading s k l =>
    cases l with
    | cons b r => exact emit_ok (p' := .reading s k r) h0 (by simp) (by simp) rfl (fun l => by simp [pfut]) hs
    | nil =>
      have hq : n.hdr = true → ¬ ∀ s pend, q ≠ .reading s pend := fun hh hq => by simpa using h3 hh hq
      cases k with
      | zero =>
        simp only [Option.some.injEq] at hs
        subst hs
        refine ⟨⟨h1, h2, fun hh x => absurd x (hq hh), h4, fun hd hh => by simpa using h5 hd hh, h6, h7, h8⟩, ?_, ?_⟩
        · simp only [Cfg.total, Cfg.pf, Cfg.qf, pfut, feed, List.nil_append]
        · simp only [Cfg.mu, Cfg.avail, Cfg.pf, Cfg.qf, pfut, feed, Take.rank, List.nil_append]
          omega
      | succ k =>
        cases inp with
        | cons x l =>
          simp only [Option.some.injEq] at hs
          subst hs
          refine ⟨⟨h1, h2, fun hh x => absurd x (hq hh), h4, fun hd hh => by simpa using h5 hd hh, h6, h7, h8⟩, ?_, ?_⟩
          · simp only [Cfg.total, Cfg.pf, Cfg.qf, pfut, feed, List.nil_append, List.cons_append]
          · simp only [Cfg.mu, Cfg.avail, Cfg.pf, Cfg.qf, pfut, feed, Take.rank, List.nil_append, List.cons_append,
              List.length_cons]
            omega
        | nil =>
          simp only at hs
          split_ifs at hs with hsh
          simp only [Option.some.injEq] at hs
          subst hs
          have ht := h1 hsh
          simp only at ht
          refine ⟨⟨h1, h2, fun hh x => absurd x (hq hh), h4, fun hd hh => by simpa using h5 hd hh, h6, h7, h8⟩, ?_, ?_⟩
          · simp only [Cfg.total, Cfg.pf, Cfg.qf, pfut, feed, ht, List.nil_append]
          · simp only [Cfg.mu, Cfg.avail, Cfg.pf, Cfg.qf, pfut, feed, ht, Take.rank, List.nil_append]
            omega

theorem stepQ_ok {c c' : Cfg n} (h : Inv c) (hs : stepQ n c = some c') :
    Inv c' ∧ c'.total = c.total ∧ c'.mu < c.mu := by
  obtain ⟨par, inp, shut, p, mid, q, out⟩ := c
  obtain ⟨h1, h2, h3, h4, h5, h6, h7, h8⟩ := h
  have hh : n.hdr = true := by
    by_contra hh
    obtain ⟨e, -⟩ := h6 (by simpa using hh)
    simp only at e
    subst e
    simp [stepQ] at hs
  unfold stepQ at hs
  simp only at *
  have nf : ∀ {P : Prop}, n.hdr = false → P := fun x => by simp [hh] at x
  cases q with
  | gone => exact absurd hs (by simp)
  | closing l =>
    have hg := h3 hh (by simp)
    have hm := h7 hh (by simp)
    have nd : par ≠ .done := fun hd => by simpa using h4 hd hh
    cases l with
    | nil =>
      simp only [Option.some.injEq] at hs
      subst hs
      refine ⟨⟨h1, h2, fun _ _ => hg, fun hd => absurd hd nd, fun hd => absurd hd nd, nf, fun _ _ => hm, h8⟩, ?_, ?_⟩
      · simp only [Cfg.total, Cfg.qf, qfut, hh, if_true]
      · simp only [Cfg.mu, Cfg.avail, Cfg.pf, Cfg.qf, qfut, Copy.rank]
        omega
    | cons b r =>
      simp only [Option.some.injEq] at hs
      subst hs
      refine ⟨⟨h1, h2, fun _ _ => hg, fun hd => absurd hd nd, fun hd => absurd hd nd, nf, fun _ _ => hm, h8⟩, ?_, ?_⟩
      · simp only [Cfg.total, Cfg.qf, qfut, hh, if_true]; simp
      · simp only [Cfg.mu, Cfg.avail, Cfg.pf, Cfg.qf, qfut, Copy.rank, List.length_cons]
        omega
  | reading s l =>
    have nd : par ≠ .done := fun hd => by simpa using h4 hd hh
    cases l with
    | cons b r =>
      simp only [Option.some.injEq] at hs
      subst hs
      refine ⟨⟨h1, h2, fun _ x => absurd rfl (x s r), fun hd => absurd hd nd, fun hd => absurd hd nd, nf,
        fun _ x => absurd rfl (x s r), h8⟩, ?_, ?_⟩
      · simp only [Cfg.total, Cfg.qf, Cfg.pf, qfut, hh, if_true]; simp
      · simp only [Cfg.mu, Cfg.avail, Cfg.pf, Cfg.qf, qfut, Copy.rank, List.length_cons, List.length_append]
        omega
    | nil =>
      cases mid with
      | cons x l =>
        simp only [Option.some.injEq] at hs
        subst hs
        refine ⟨⟨h1, h2, fun _ y => absurd rfl (y _ _), fun hd => absurd hd nd, fun hd => absurd hd nd, nf,
          fun _ y => absurd rfl (y _ _), h8⟩, ?_, ?_⟩
        · simp only [Cfg.total, Cfg.qf, Cfg.pf, qfut, go, hh, if_true, List.nil_append, List.cons_append]
        · simp only [Cfg.mu, Cfg.avail, Cfg.pf, Cfg.qf, qfut, go, Copy.rank, List.length_cons, List.length_append,
            List.nil_append, List.cons_append]
          omega
      | nil =>
        simp only at hs
        split_ifs at hs with hg
        rw [isGone_iff] at hg
        simp only [Option.some.injEq] at hs
        subst hs
        subst hg
        refine ⟨⟨h1, h2, fun _ _ => rfl, fun hd => absurd hd nd, fun hd => absurd hd nd, nf, fun _ _ => rfl, h8⟩, ?_, ?_⟩
        · simp only [Cfg.total, Cfg.qf, Cfg.pf, qfut, pfut, go, hh, if_true, List.nil_append]
        · simp only [Cfg.mu, Cfg.avail, Cfg.pf, Cfg.qf, qfut, pfut, go, Copy.rank, List.nil_append, List.length_nil]
          omega

theorem step_ok {w : Who} {c c' : Cfg n} (h : Inv c) (hs : step n w c = some c') :
    Inv c' ∧ c'.total = c.total ∧ c'.mu < c.mu := by
  cases w with
  | python => exact stepPar_ok h hs
  | pvalue => exact stepP_ok h hs
  | getinfo => exact stepQ_ok h hs

theorem turn_ok {w : Who} {c : Cfg n} (h : Inv c) : Inv (turn n w c) ∧ (turn n w c).total = c.total := by
  unfold turn
  cases hs : step n w c with
  | none => exact ⟨h, rfl⟩
  | some c' => exact ⟨(step_ok h hs).1, (step_ok h hs).2.1⟩

theorem after_ok (data : List β) (f : ℕ → Who) (t : ℕ) :
    Inv (after n (start n data) f t) ∧ (after n (start n data) f t).total = (start n data).total := by
  induction t with
  | zero => exact ⟨inv_start n data, rfl⟩
  | succ t ih => exact ⟨(turn_ok ih.1).1, (turn_ok ih.1).2.trans ih.2⟩

/-- under every fair schedule something that makes progress until it is finished is finished some time -/
theorem fair_finish {S W : Type} (stp : W → S → Option S) (mu : S → ℕ) (I fin : S → Prop)
    (hI : ∀ w c c', I c → stp w c = some c' → I c' ∧ mu c' < mu c)
    (hp : ∀ c, I c → ¬ fin c → ∃ w c', stp w c = some c') (f : ℕ → W) (hf : Fair f) (g : ℕ → S)
    (hg : ∀ t, g (t + 1) = (stp (f t) (g t)).getD (g t)) (h0 : I (g 0)) : ∃ t, fin (g t) := by
  have hall : ∀ t, I (g t) := by
    intro t
    induction t with
    | zero => exact h0
    | succ t ih =>
      rw [hg]
      cases hs : stp (f t) (g t) with
      | none => exact ih
      | some c' => exact (hI _ _ _ ih hs).1
  -- a process that can move makes the state move until its next turn at the latest
  have dec : ∀ d t w c', f (t + d) = w → stp w (g t) = some c' → ∃ t', mu (g t') < mu (g t) := by
    intro d
    induction d with
    | zero =>
      intro t w c' hw hs
      refine ⟨t + 1, ?_⟩
      rw [Nat.add_zero] at hw
      rw [hg, hw, hs]
      exact (hI _ _ _ (hall t) hs).2
    | succ d ih =>
      intro t w c' hw hs
      cases hs' : stp (f t) (g t) with
      | some c'' =>
        refine ⟨t + 1, ?_⟩
        rw [hg, hs']
        exact (hI _ _ _ (hall t) hs').2
      | none =>
        have e : g (t + 1) = g t := by rw [hg, hs']; rfl
        obtain ⟨t', ht'⟩ := ih (t + 1) w c' (by rw [← hw]; congr 1; omega) (by rw [e]; exact hs)
        exact ⟨t', by rw [← e]; exact ht'⟩
  have main : ∀ m t, mu (g t) = m → ∃ t', fin (g t') := by
    intro m
    induction m using Nat.strong_induction_on with
    | _ m ih =>
      intro t hm
      by_cases hfin : fin (g t)
      · exact ⟨t, hfin⟩
      · obtain ⟨w, c', hs⟩ := hp _ (hall t) hfin
        obtain ⟨t1, h1, h2⟩ := hf w t
        obtain ⟨t2, h3⟩ := dec (t1 - t) t w c' (by rw [← h2]; congr 1; omega) hs
        exact ih _ (by omega) t2 rfl
  exact main _ 0 rfl

/-- where writing can come to a halt -/
theorem progress {c : Cfg n} (h : Inv c) (h1 : 0 < n.cap1) (h2 : 0 < n.cap2) (hd : c.par ≠ .done) (hb : c.par ≠ .broken)
    (hx : ¬ (n.hdr = true ∧ c.avail < c.p.wants)) : ∃ w c', step n w c = some c' := by
  obtain ⟨par, inp, shut, p, mid, q, out⟩ := c
  obtain ⟨i1, i2, i3, i4, i5, i6, i7, i8⟩ := h
  simp only at *
  -- `pvalue` has a byte to print
  have em : ∀ b p', p ≠ .gone → stepP n ⟨par, inp, shut, p, mid, q, out⟩ = emit n ⟨par, inp, shut, p, mid, q, out⟩ b p' →
      ∃ w c', step n w (⟨par, inp, shut, p, mid, q, out⟩ : Cfg n) = some c' := by
    intro b p' hg he
    cases hh : n.hdr with
    | false => exact ⟨.pvalue, _, by rw [step, he, emit, if_neg (by simp [hh])]⟩
    | true =>
      by_cases hm : mid.length < n.cap2
      · exact ⟨.pvalue, _, by rw [step, he, emit, if_pos hh, if_pos hm]⟩
      · cases q with
        | gone => exact absurd (i3 hh (by simp)) hg
        | closing l => exact absurd (i3 hh (by simp)) hg
        | reading s l =>
          cases l with
          | cons b r => exact ⟨.getinfo, _, rfl⟩
          | nil =>
            cases mid with
            | nil => exact absurd h2 (by simpa using hm)
            | cons x l => exact ⟨.getinfo, _, rfl⟩
  cases p with
  | closing l =>
    cases l with
    | nil => exact ⟨.pvalue, _, rfl⟩
    | cons b r => exact em b (.closing r) (by simp) rfl
  | reading s k l =>
    cases l with
    | cons b r => exact em b (.reading s k r) (by simp) rfl
    | nil =>
      cases k with
      | zero => exact ⟨.pvalue, _, rfl⟩
      | succ k =>
        cases inp with
        | cons x l => exact ⟨.pvalue, _, rfl⟩
        | nil =>
          cases par with
          | done => exact absurd rfl hd
          | broken => exact absurd rfl hb
          | send l =>
            cases l with
            | nil => exact ⟨.python, _, rfl⟩
            | cons b r => exact ⟨.python, _, by simp only [step, stepPar, Take.isGone]; rw [if_neg (by simp), if_pos (by simpa using h1)]⟩
          | wait =>
            cases hh : n.hdr with
            | true => exact absurd ⟨hh, by simp [Cfg.avail, Par.todo, Take.wants]⟩ hx
            | false =>
              have := i2 rfl hh
              subst this
              exact ⟨.pvalue, _, rfl⟩
  | gone =>
    cases par with
    | done => exact absurd rfl hd
    | broken => exact absurd rfl hb
    | send l =>
      cases l with
      | nil => exact ⟨.python, _, rfl⟩
      | cons b r => exact ⟨.python, _, rfl⟩
    | wait =>
      cases hh : n.hdr with
      | false => exact ⟨.python, _, by simp only [step, stepPar, hh]; rfl⟩
      | true =>
        cases q with
        | gone => exact ⟨.python, _, by simp only [step, stepPar, hh]; rfl⟩
        | closing l => cases l <;> exact ⟨.getinfo, _, rfl⟩
        | reading s l =>
          cases l with
          | cons b r => exact ⟨.getinfo, _, rfl⟩
          | nil => cases mid <;> exact ⟨.getinfo, _, rfl⟩

/-- the bytes on their way and those still wanted, `d` of them missing, as long as the input of `pvalue` is open -/
def Bal (d : ℕ) (c : Cfg n) : Prop :=
  c.par ≠ .broken ∧ (c.shut = false → c.avail + d = c.p.wants ∧ (0 < d → c.p.rank = 2))

theorem balance {w : Who} {c c' : Cfg n} (h : Inv c) (hs : step n w c = some c') (d : ℕ) (hb : Bal d c) : Bal d c' := by
  obtain ⟨par, inp, shut, p, mid, q, out⟩ := c
  obtain ⟨b1, b2⟩ := hb
  have i1 := h.shut
  unfold Bal
  simp only [Cfg.avail] at *
  cases w with
  | python =>
    simp only [step, stepPar] at hs
    cases par with
    | send l =>
      cases l with
      | nil =>
        simp only [Option.some.injEq] at hs
        subst hs
        cases hsh : shut with
        | true => exact ⟨by simp, fun hq => by
            have := h.quiet
            cases hh : n.hdr with
            | true => simp [hsh] at this; rw [this] at hh; simp at hh
            | false => simp [hh] at hq⟩
        | false => exact ⟨by simp, fun _ => by simpa [Par.todo] using b2 hsh⟩
      | cons b r =>
        cases hsh : shut with
        | true => exact absurd (i1 hsh) (by simp [Par.todo])
        | false =>
          subst hsh
          obtain ⟨b2, b3⟩ := b2 rfl
          simp only at hs
          split_ifs at hs with hg hc
          · rw [isGone_iff] at hg
            subst hg
            simp [Par.todo, Take.wants] at b2
          · simp only [Option.some.injEq] at hs
            subst hs
            refine ⟨by simp, fun _ => ⟨?_, b3⟩⟩
            simp only [Par.todo, List.length_append, List.length_cons, List.length_nil] at b2 ⊢
            omega
    | wait =>
      by_cases hg : (if n.hdr then q.isGone else p.isGone) = true
      · simp only [hg, if_true, Option.some.injEq] at hs
        subst hs
        exact ⟨by simp, b2⟩
      · simp only [hg] at hs
        exact absurd hs (by simp)
    | done => exact absurd hs (by simp)
    | broken => exact absurd hs (by simp)
  | pvalue =>
    have em : ∀ b (p' : Take β n.F.σ), p'.wants = p.wants → p'.rank = p.rank → emit n ⟨par, inp, shut, p, mid, q, out⟩ b p' = some c' →
        c'.par ≠ .broken ∧ (c'.shut = false → c'.inp.length + c'.par.todo.length + d = c'.p.wants ∧ (0 < d → c'.p.rank = 2)) := by
      intro b p' hw hr he
      unfold emit at he
      split_ifs at he
      all_goals
        simp only [Option.some.injEq] at he
        subst he
        exact ⟨b1, by simp only [hw, hr]; exact b2⟩
    simp only [step, stepP] at hs
    cases p with
    | gone => exact absurd hs (by simp)
    | closing l =>
      cases l with
      | nil =>
        simp only [Option.some.injEq] at hs
        subst hs
        exact ⟨b1, fun hq => ⟨(b2 hq).1, fun hd => by simpa [Take.rank] using (b2 hq).2 hd⟩⟩
      | cons b r => exact em b (.closing r) rfl rfl hs
    | reading s k l =>
      cases l with
      | cons b r => exact em b (.reading s k r) rfl rfl hs
      | nil =>
        cases k with
        | zero =>
          simp only [Option.some.injEq] at hs
          subst hs
          refine ⟨b1, fun hq => ⟨(b2 hq).1, fun hd => ?_⟩⟩
          have := (b2 hq).1
          simp only [Take.wants] at this
          omega
        | succ k =>
          cases inp with
          | cons x l =>
            simp only [Option.some.injEq] at hs
            subst hs
            refine ⟨b1, fun hq => ⟨?_, fun _ => rfl⟩⟩
            have := (b2 hq).1
            simp only [Take.wants, List.length_cons] at this ⊢
            omega
          | nil =>
            simp only at hs
            split_ifs at hs with hsh
            simp only [Option.some.injEq] at hs
            subst hs
            exact ⟨b1, fun hq => by rw [hsh] at hq; simp at hq⟩
  | getinfo =>
    simp only [step, stepQ] at hs
    cases q with
    | gone => exact absurd hs (by simp)
    | closing l =>
      cases l <;>
      · simp only [Option.some.injEq] at hs
        subst hs
        exact ⟨b1, b2⟩
    | reading s l =>
      cases l with
      | cons b r =>
        simp only [Option.some.injEq] at hs
        subst hs
        exact ⟨b1, b2⟩
      | nil =>
        cases mid with
        | cons x l =>
          simp only [Option.some.injEq] at hs
          subst hs
          exact ⟨b1, b2⟩
        | nil =>
          simp only at hs
          split_ifs at hs
          simp only [Option.some.injEq] at hs
          subst hs
          exact ⟨b1, b2⟩

theorem balanced (data : List β) (d : ℕ) (hd : data.length + d = n.want) (f : ℕ → Who) (t : ℕ) :
    Bal d (after n (start n data) f t) := by
  induction t with
  | zero => exact ⟨by simp [after, start], fun _ => ⟨by simpa [after, start, Cfg.avail, Par.todo, Take.wants] using hd,
      fun _ => rfl⟩⟩
  | succ t ih =>
    simp only [after, turn]
    cases hs : step n (f t) (after n (start n data) f t) with
    | none => exact ih
    | some c' => exact balance (after_ok data f t).1 hs d ih

/-- the file a finished call leaves -/
theorem done_out {c : Cfg n} (h : Inv c) (hd : c.par = .done) : c.out = c.total := by
  unfold Cfg.total
  cases hh : n.hdr with
  | true => simp [Cfg.qf, h.over hd hh, qfut]
  | false => simp [Cfg.pf, h.over' hd hh, pfut]

theorem total_start (n : Net β) (data : List β) :
    (start n data).total = if n.hdr then through n.G (n.F.greet ++ feed n.F n.want n.F.start data)
      else n.F.greet ++ feed n.F n.want n.F.start data := by
  unfold Cfg.total Cfg.qf Cfg.pf start
  cases n.hdr <;> simp [pfut, qfut, Par.todo, through]

/-- what the file should hold: the pixels through `pvalue`, and through `getinfo` if there is a header -/
def Spec.picture (n : Net β) (data : List β) : List β :=
  if n.hdr then through n.G (through n.F data) else through n.F data

theorem enough {w : Who} {c c' : Cfg n} (hs : step n w c = some c') (hb : c'.par ≠ .broken)
    (h : c.par ≠ .broken → c.p.wants ≤ c.avail) : c'.p.wants ≤ c'.avail := by
  obtain ⟨par, inp, shut, p, mid, q, out⟩ := c
  simp only [Cfg.avail] at *
  cases w with
  | python =>
    simp only [step, stepPar] at hs
    cases par with
    | send l =>
      cases l with
      | nil =>
        simp only [Option.some.injEq] at hs
        subst hs
        exact h (by simp)
      | cons b r =>
        simp only at hs
        split_ifs at hs with hg hc
        · simp only [Option.some.injEq] at hs
          subst hs
          exact absurd rfl hb
        · simp only [Option.some.injEq] at hs
          subst hs
          have := h (by simp)
          simp only [Par.todo, List.length_append, List.length_cons, List.length_nil] at this ⊢
          omega
    | wait =>
      by_cases hg : (if n.hdr then q.isGone else p.isGone) = true
      · simp only [hg, if_true, Option.some.injEq] at hs
        subst hs
        exact h (by simp)
      · simp only [hg] at hs
        exact absurd hs (by simp)
    | done => exact absurd hs (by simp)
    | broken => exact absurd hs (by simp)
  | pvalue =>
    have em : ∀ b (p' : Take β n.F.σ), p'.wants = p.wants → emit n ⟨par, inp, shut, p, mid, q, out⟩ b p' = some c' →
        c'.p.wants ≤ c'.inp.length + c'.par.todo.length := by
      intro b p' hw he
      unfold emit at he
      split_ifs at he
      all_goals
        simp only [Option.some.injEq] at he
        subst he
        simp only [hw]
        exact h hb
    simp only [step, stepP] at hs
    cases p with
    | gone => exact absurd hs (by simp)
    | closing l =>
      cases l with
      | nil =>
        simp only [Option.some.injEq] at hs
        subst hs
        simp [Take.wants]
      | cons b r => exact em b (.closing r) rfl hs
    | reading s k l =>
      cases l with
      | cons b r => exact em b (.reading s k r) rfl hs
      | nil =>
        cases k with
        | zero =>
          simp only [Option.some.injEq] at hs
          subst hs
          simp [Take.wants]
        | succ k =>
          cases inp with
          | cons x l =>
            simp only [Option.some.injEq] at hs
            subst hs
            have := h hb
            simp only [Take.wants, List.length_cons] at this ⊢
            omega
          | nil =>
            simp only at hs
            split_ifs at hs with hsh
            simp only [Option.some.injEq] at hs
            subst hs
            simp [Take.wants]
  | getinfo =>
    simp only [step, stepQ] at hs
    cases q with
    | gone => exact absurd hs (by simp)
    | closing l =>
      cases l <;>
      · simp only [Option.some.injEq] at hs
        subst hs
        exact h hb
    | reading s l =>
      cases l with
      | cons b r =>
        simp only [Option.some.injEq] at hs
        subst hs
        exact h hb
      | nil =>
        cases mid with
        | cons x l =>
          simp only [Option.some.injEq] at hs
          subst hs
          exact h hb
        | nil =>
          simp only at hs
          split_ifs at hs
          simp only [Option.some.injEq] at hs
          subst hs
          exact h hb

theorem finishes (h1 : 0 < n.cap1) (h2 : 0 < n.cap2) (data : List β) (hd : n.hdr = true → n.want ≤ data.length)
    (f : ℕ → Who) (hf : Fair f) :
    ∃ t, (after n (start n data) f t).par = .done ∨ (after n (start n data) f t).par = .broken := by
  -- with a header, what is on its way suffices
  let J : Cfg n → Prop := fun c => Inv c ∧ (n.hdr = true → c.par ≠ .broken → c.p.wants ≤ c.avail)
  refine fair_finish (step n) Cfg.mu J (fun c => c.par = .done ∨ c.par = .broken) ?_ ?_ f hf _ (fun t => rfl) ?_
  · rintro w c c' ⟨hI, hJ⟩ hs
    obtain ⟨a, -, b⟩ := step_ok hI hs
    exact ⟨⟨a, fun hh hb => enough hs hb (hJ hh)⟩, b⟩
  · rintro c ⟨hI, hJ⟩ hfin
    simp only [not_or] at hfin
    refine progress hI h1 h2 hfin.1 hfin.2 fun hx => ?_
    have := hJ hx.1 hfin.2
    omega
  · exact ⟨inv_start n data, fun hh _ => by simpa [after, start, Cfg.avail, Par.todo, Take.wants] using hd hh⟩

theorem feed_take (F : Filter β) : ∀ (k : ℕ) (s : F.σ) (l : List β), k ≤ l.length → feed F k s l = go F s (l.take k)
  | 0, s, l, _ => by simp [feed, go]
  | k + 1, s, [], h => absurd h (by simp)
  | k + 1, s, b :: l, h => by
    simp only [feed, List.take_succ_cons, go]
    rw [feed_take F k _ l (by simpa using h)]

/-- what a program prints before it notices that its input has ended too early -/
def Spec.cut (F : Filter β) : F.σ → List β → List β
  | _, [] => []
  | s, b :: l => (F.on s b).2 ++ Spec.cut F (F.on s b).1 l

theorem feed_cut (F : Filter β) : ∀ (l : List β) (s : F.σ) (k : ℕ), l.length < k → feed F k s l = Spec.cut F s l
  | [], s, k + 1, _ => rfl
  | b :: l, s, k + 1, h => by
    simp only [feed, Spec.cut]
    rw [feed_cut F l _ k (by simpa using h)]

/-- **C176**, as the list has it: writing an array finishes with the whole picture in the file, whatever the sizes of the
pipes and the order in which the operating system runs the programs -/
def C176_statement : Prop :=
  ∀ (n : Net UInt8) (lead : List ℕ) (x y : ℕ) (data : List UInt8) (f : ℕ → Who), 0 < n.cap1 → 0 < n.cap2 →
    n.want = wanted lead x y → data.length = sent lead x y → Fair f →
      ∃ t, (after n (start n data) f t).par = .done ∧ (after n (start n data) f t).out = Spec.picture n data

/-- **C176**: writing finishes with the whole picture when `pvalue` is sent what it is told to expect -/
theorem C176_partial (n : Net β) (data : List β) (f : ℕ → Who) (h1 : 0 < n.cap1) (h2 : 0 < n.cap2)
    (hd : data.length = n.want) (hf : Fair f) :
    ∃ t, (after n (start n data) f t).par = .done ∧ (after n (start n data) f t).out = Spec.picture n data := by
  obtain ⟨t, ht⟩ := finishes h1 h2 data (fun _ => hd.ge) f hf
  have hnb := (balanced data 0 (by simpa using hd) f t).1
  have hdone := ht.resolve_right hnb
  refine ⟨t, hdone, ?_⟩
  rw [done_out (after_ok data f t).1 hdone, (after_ok data f t).2, total_start, ← hd]
  have e := feed_go n.F data n.F.start []
  rw [List.append_nil] at e
  rw [e]
  rfl

/-- **C176** for arrays: two dimensions, or three channels in front of them -/
theorem C176_arrays_partial (n : Net β) (lead : List ℕ) (x y : ℕ) (data : List β) (f : ℕ → Who) (h1 : 0 < n.cap1)
    (h2 : 0 < n.cap2) (hw : n.want = wanted lead x y) (hs : data.length = sent lead x y) (hl : lead = [] ∨ lead.prod = 3)
    (hf : Fair f) :
    ∃ t, (after n (start n data) f t).par = .done ∧ (after n (start n data) f t).out = Spec.picture n data := by
  refine C176_partial n data f h1 h2 ?_ hf
  rw [hw, hs]
  unfold sent wanted
  rcases hl with rfl | hl
  · simp
  · rw [hl, if_neg]
    intro he
    rw [List.isEmpty_iff] at he
    subst he
    simp at hl

/-- **C176**: no order of the processes makes a call fail or leave something else, once it returns -/
theorem C176_only (n : Net β) (data : List β) (f : ℕ → Who) (t : ℕ) (hd : data.length = n.want) :
    (after n (start n data) f t).par ≠ .broken ∧
      ((after n (start n data) f t).par = .done → (after n (start n data) f t).out = Spec.picture n data) := by
  refine ⟨(balanced data 0 (by simpa using hd) f t).1, fun hdone => ?_⟩
  rw [done_out (after_ok data f t).1 hdone, (after_ok data f t).2, total_start, ← hd]
  have e := feed_go n.F data n.F.start []
  rw [List.append_nil] at e
  rw [e]
  rfl

/-- **C176**: with a header, a call that sends less than announced never returns and never raises -/
theorem C176_hangs (n : Net β) (data : List β) (f : ℕ → Who) (t : ℕ) (hh : n.hdr = true) (hd : data.length < n.want) :
    (after n (start n data) f t).par ≠ .done ∧ (after n (start n data) f t).par ≠ .broken := by
  obtain ⟨a, b⟩ := balanced (n := n) data (n.want - data.length) (by omega) f t
  refine ⟨fun hdone => ?_, a⟩
  have h := (after_ok (n := n) data f t).1
  have hq := h.over hdone hh
  have hp := h.ends hh (by simp [hq])
  have := (b (h.quiet hh)).2 (by omega)
  rw [hp] at this
  simp [Take.rank] at this

/-- **C176**: these are arrays with one or two channels -/
theorem C176_channels (lead : List ℕ) (x y : ℕ) (hp : 0 < x * y) :
    sent lead x y < wanted lead x y ↔ lead ≠ [] ∧ lead.prod < 3 := by
  unfold sent wanted
  cases lead with
  | nil => simp
  | cons a l =>
    simp only [List.isEmpty_cons, Bool.false_eq_true, if_false, ne_eq, reduceCtorEq, not_false_eq_true, true_and]
    rw [Nat.mul_lt_mul_left (by omega)]
    exact Nat.mul_lt_mul_right hp

/-- **C176**: without a header such a call returns as if all was well; the file ends where the pixels did -/
theorem C176_short (n : Net β) (data : List β) (f : ℕ → Who) (h1 : 0 < n.cap1) (h2 : 0 < n.cap2) (hh : n.hdr = false)
    (hd : data.length < n.want) (hf : Fair f) :
    ∃ t, (after n (start n data) f t).par = .done ∧
      (after n (start n data) f t).out = n.F.greet ++ Spec.cut n.F n.F.start data := by
  obtain ⟨t, ht⟩ := finishes h1 h2 data (by simp [hh]) f hf
  have hdone := ht.resolve_right (balanced (n := n) data (n.want - data.length) (by omega) f t).1
  refine ⟨t, hdone, ?_⟩
  rw [done_out (after_ok data f t).1 hdone, (after_ok data f t).2, total_start, hh, if_neg (by simp), feed_cut _ _ _ _ hd]

/-- **C176**: a call that sends more than announced returns or raises, and if it returns the file holds the picture of the first
pixels -/
theorem C176_surplus (n : Net β) (data : List β) (f : ℕ → Who) (h1 : 0 < n.cap1) (h2 : 0 < n.cap2)
    (hd : n.want ≤ data.length) (hf : Fair f) :
    ∃ t, ((after n (start n data) f t).par = .done ∨ (after n (start n data) f t).par = .broken) ∧
      ((after n (start n data) f t).par = .done →
        (after n (start n data) f t).out = Spec.picture n (data.take n.want)) := by
  obtain ⟨t, ht⟩ := finishes h1 h2 data (fun _ => hd) f hf
  refine ⟨t, ht, fun hdone => ?_⟩
  rw [done_out (after_ok data f t).1 hdone, (after_ok data f t).2, total_start, feed_take _ _ _ _ hd]
  rfl

/-! ### witnesses -/

/-- a program that copies -/
def cat : Filter UInt8 := ⟨Unit, (), [], fun _ b => ((), [b]), fun _ => []⟩

/-- the three processes in turn -/
def robin (t : ℕ) : Who := match t % 3 with
  | 0 => .python
  | 1 => .pvalue
  | _ => .getinfo

theorem robin_fair : Fair robin := by
  intro w t
  cases w with
  | python => exact ⟨3 * t, by omega, by simp [robin]⟩
  | pvalue => exact ⟨3 * t + 1, by omega, by have : (3 * t + 1) % 3 = 1 := by omega
                                             simp [robin, this]⟩
  | getinfo => exact ⟨3 * t + 2, by omega, by have : (3 * t + 2) % 3 = 2 := by omega
                                              simp [robin, this]⟩

theorem C176_refuted : ¬ C176_statement := by
  intro h
  obtain ⟨t, ht, -⟩ := h ⟨cat, cat, 12, 1, 1, true⟩ [1] 1 1 [1, 2, 3, 4] robin (by simp) (by simp) (by simp [wanted]) (by simp [sent])
    robin_fair
  exact (C176_hangs ⟨cat, cat, 12, 1, 1, true⟩ [1, 2, 3, 4] robin t rfl (by simp)).1 ht

/-- where python is after a schedule, as a number -/
def Par.code : Par β → ℕ
  | .send _ => 0
  | .wait => 1
  | .done => 2
  | .broken => 3

/-- one pixel with four channels: sixteen bytes for a `pvalue` that wants twelve -/
def four : Net UInt8 := ⟨cat, cat, 12, 16, 16, true⟩

/-- the same call returns or raises, as the operating system likes: python first, or `pvalue` as soon as it can -/
theorem C176_four_channels :
    (∃ ws, (run four (start four (List.replicate 16 7)) ws).par.code = 2) ∧
    ∃ ws, (run four (start four (List.replicate 16 7)) ws).par.code = 3 :=
  ⟨⟨List.replicate 17 .python ++ List.replicate 26 .pvalue ++ List.replicate 26 .getinfo ++ [.python], by decide +kernel⟩,
   ⟨(List.replicate 12 [.python, .pvalue, .pvalue]).flatten ++ [.pvalue, .pvalue, .python], by decide +kernel⟩⟩

-- a picture of two pixels, with a header, through pipes of a single byte
example : ∃ t, (after ⟨cat, cat, 8, 1, 1, true⟩ (start ⟨cat, cat, 8, 1, 1, true⟩ [1, 2, 3, 4, 5, 6, 7, 8]) robin t).par = .done ∧
    (after ⟨cat, cat, 8, 1, 1, true⟩ (start ⟨cat, cat, 8, 1, 1, true⟩ [1, 2, 3, 4, 5, 6, 7, 8]) robin t).out = [1, 2, 3, 4, 5, 6, 7, 8] :=
  C176_arrays_partial ⟨cat, cat, 8, 1, 1, true⟩ [] 2 1 [1, 2, 3, 4, 5, 6, 7, 8] robin (by simp) (by simp) (by simp [wanted])
    (by simp [sent]) (Or.inl rfl) robin_fair

example : sent [2] 5 5 < wanted [2] 5 5 := (C176_channels [2] 5 5 (by norm_num)).2 ⟨by simp, by simp⟩

/-! ## reading -/

/-- what a program prints on its standard output, and on its error stream -/
def Spec.outs (l : Print β) : List β := (l.filter fun x => !x.1).map Prod.snd
def Spec.errs (l : Print β) : List β := (l.filter fun x => x.1).map Prod.snd

/-- the first line of a text, with its end -/
def Spec.first (eol : β → Bool) : List β → List β
  | [] => []
  | b :: l => if eol b then [b] else b :: Spec.first eol l

open Spec (outs errs first)

theorem first_append (eol : β → Bool) (g l : List β) (b : β) (hg : ∀ x ∈ g, eol x = false) (hb : eol b = true) :
    first eol (g ++ b :: l) = g ++ [b] := by
  induction g with
  | nil => simp [first, hb]
  | cons a g ih =>
    simp only [List.cons_append, first, hg a List.mem_cons_self, Bool.false_eq_true, if_false]
    rw [ih fun x hx => hg x (List.mem_cons_of_mem _ hx)]

theorem first_all (eol : β → Bool) (g : List β) (hg : ∀ x ∈ g, eol x = false) : first eol g = g := by
  induction g with
  | nil => rfl
  | cons a g ih =>
    simp only [first, hg a List.mem_cons_self, Bool.false_eq_true, if_false]
    rw [ih fun x hx => hg x (List.mem_cons_of_mem _ hx)]

/-- what python has read of the output -/
def Rd.got : Rd β → List β
  | .line g => g
  | .rest f g => f ++ g
  | .done f g => f ++ g
  | .bad g => g

def Rd.rank : Rd β → ℕ
  | .line _ => 2
  | .rest _ _ => 1
  | _ => 0

/-- what the position says about the whole output `all` -/
def Rd.Ok (n : RNet β) (all : List β) (c : RCfg β) : Rd β → Prop
  | .line g => ∀ x ∈ g, n.eol x = false
  | .rest f _ => f = first n.eol all ∧ n.size f = true
  | .done f _ => f = first n.eol all ∧ n.size f = true ∧ c.live = false ∧ c.out = [] ∧ (n.drain = true → c.err = [])
  | .bad g => g = first n.eol all ∧ n.size g = false

structure RInv (n : RNet β) (todo : Print β) (c : RCfg β) : Prop where
  out : c.rd.got ++ (c.out ++ outs c.todo) = outs todo
  err : c.errGot ++ (c.err ++ errs c.todo) = errs todo
  ends : c.live = false → c.todo = []
  rd : c.rd.Ok n (outs todo) c
  cap : c.err.length ≤ n.capErr
  quiet : n.drain = false → c.errGot = []

def RCfg.mu (c : RCfg β) : ℕ :=
  2 * c.todo.length + (if c.live then 1 else 0) + c.out.length + c.err.length + c.rd.rank

theorem rinv_start (n : RNet β) (todo : Print β) : RInv n todo (rStart todo) where
  out := by simp [rStart, Rd.got]
  err := by simp [rStart]
  ends := by simp [rStart]
  rd := by simp [rStart, Rd.Ok]
  cap := by simp [rStart]
  quiet := by simp [rStart]

theorem rChild_ok {n : RNet β} {todo : Print β} {c c' : RCfg β} (h : RInv n todo c) (hs : rChild n c = some c') :
    RInv n todo c' ∧ c'.mu < c.mu := by
  obtain ⟨td, live, out, err, rd, eg⟩ := c
  obtain ⟨h1, h2, h3, h4, h5, h6⟩ := h
  have nd : td ≠ [] ∨ live = true → ∀ f g, rd ≠ .done f g := by
    rintro hx f g rfl
    rcases hx with hx | hx
    · exact hx (h3 h4.2.2.1)
    · exact absurd h4.2.2.1 (by simp [hx])
  unfold rChild at hs
  simp only at *
  cases td with
  | nil =>
    simp only at hs
    split_ifs at hs with hl
    simp only [Option.some.injEq] at hs
    subst hs
    refine ⟨⟨h1, h2, fun _ => rfl, ?_, h5, h6⟩, ?_⟩
    · cases rd with
      | done f g => exact absurd rfl (nd (Or.inr hl) f g)
      | _ => exact h4
    · simp only [RCfg.mu, hl, if_true]
      simp
  | cons e r =>
    obtain ⟨k, b⟩ := e
    have nd' := nd (Or.inl (by simp))
    cases k with
    | true =>
      simp only at hs
      split_ifs at hs with hc
      simp only [Option.some.injEq] at hs
      subst hs
      refine ⟨⟨?_, ?_, fun hl => absurd (h3 hl) (by simp), ?_, ?_, h6⟩, ?_⟩
      · simpa [outs] using h1
      · simpa [errs] using h2
      · cases rd with
        | done f g => exact absurd rfl (nd' f g)
        | _ => exact h4
      · simp only [List.length_append, List.length_cons, List.length_nil]; omega
      · simp only [RCfg.mu, List.length_append, List.length_cons, List.length_nil]; omega
    | false =>
      simp only at hs
      split_ifs at hs with hc
      simp only [Option.some.injEq] at hs
      subst hs
      refine ⟨⟨?_, ?_, fun hl => absurd (h3 hl) (by simp), ?_, h5, h6⟩, ?_⟩
      · simpa [outs] using h1
      · simpa [errs] using h2
      · cases rd with
        | done f g => exact absurd rfl (nd' f g)
        | _ => exact h4
      · simp only [RCfg.mu, List.length_append, List.length_cons, List.length_nil]; omega

theorem lineEnd_ok (n : RNet β) (all got : List β) (c : RCfg β) (h : got = first n.eol all) :
    (lineEnd n got).Ok n all c ∧ (lineEnd n got).got = got ∧ (lineEnd n got).rank ≤ 1 := by
  unfold lineEnd
  cases hs : n.size got with
  | true => simp [Rd.Ok, Rd.got, Rd.rank, hs, h.symm]
  | false => simp [Rd.Ok, Rd.got, Rd.rank, hs, h.symm]

theorem rOut_ok {n : RNet β} {todo : Print β} {c c' : RCfg β} (h : RInv n todo c) (hs : rOut n c = some c') :
    RInv n todo c' ∧ c'.mu < c.mu := by
  obtain ⟨td, live, out, err, rd, eg⟩ := c
  obtain ⟨h1, h2, h3, h4, h5, h6⟩ := h
  unfold rOut at hs
  simp only at *
  cases rd with
  | done f g => exact absurd hs (by simp)
  | bad g => exact absurd hs (by simp)
  | line g =>
    cases out with
    | cons b r =>
      simp only [Option.some.injEq] at hs
      subst hs
      cases hb : n.eol b with
      | true =>
        have hf : g ++ [b] = first n.eol (outs todo) := by
          rw [← h1]
          exact (first_append n.eol g _ b h4 hb).symm
        obtain ⟨k1, k2, k3⟩ := lineEnd_ok n (outs todo) (g ++ [b]) ⟨td, live, r, err, lineEnd n (g ++ [b]), eg⟩ hf
        refine ⟨⟨?_, h2, h3, by simpa using k1, h5, h6⟩, ?_⟩
        · simp only [if_true, k2]
          simpa [Rd.got] using h1
        · simp only [RCfg.mu, if_true, List.length_cons, Rd.rank] at k3 ⊢
          omega
      | false =>
        refine ⟨⟨?_, h2, h3, ?_, h5, h6⟩, ?_⟩
        · simpa [Rd.got] using h1
        · simp only [Bool.false_eq_true, if_false, Rd.Ok]
          intro x hx
          rcases List.mem_append.1 hx with hx | hx
          · exact h4 x hx
          · rw [List.mem_singleton.1 hx]; exact hb
        · simp only [RCfg.mu, Bool.false_eq_true, if_false, List.length_cons, Rd.rank]
          omega
    | nil =>
      simp only at hs
      split_ifs at hs with hl
      simp only [Option.some.injEq] at hs
      subst hs
      have htd := h3 (by simpa using hl)
      subst htd
      have hf : g = first n.eol (outs todo) := by
        rw [← h1]
        simp only [Rd.got, outs, List.filter_nil, List.map_nil, List.append_nil]
        exact (first_all n.eol g h4).symm
      obtain ⟨k1, k2, k3⟩ := lineEnd_ok n (outs todo) g ⟨[], live, [], err, lineEnd n g, eg⟩ hf
      refine ⟨⟨?_, h2, h3, k1, h5, h6⟩, ?_⟩
      · simp only [k2]; simpa [Rd.got] using h1
      · simp only [RCfg.mu, Rd.rank] at k3 ⊢
        omega
  | rest f g =>
    cases out with
    | cons b r =>
      simp only [Option.some.injEq] at hs
      subst hs
      refine ⟨⟨?_, h2, h3, h4, h5, h6⟩, ?_⟩
      · simpa [Rd.got] using h1
      · simp only [RCfg.mu, List.length_cons, Rd.rank]; omega
    | nil =>
      simp only at hs
      split_ifs at hs with hl
      simp only [Option.some.injEq] at hs
      subst hs
      simp only [Bool.or_eq_true, Bool.and_eq_true, not_or, Bool.not_eq_true, not_and] at hl
      refine ⟨⟨h1, h2, h3, ⟨h4.1, h4.2, hl.1, rfl, fun hd => ?_⟩, h5, h6⟩, ?_⟩
      · simpa using hl.2 hd
      · simp only [RCfg.mu, Rd.rank]; omega

theorem rErr_ok {n : RNet β} {todo : Print β} {c c' : RCfg β} (h : RInv n todo c) (hs : rErr n c = some c') :
    RInv n todo c' ∧ c'.mu < c.mu := by
  obtain ⟨td, live, out, err, rd, eg⟩ := c
  obtain ⟨h1, h2, h3, h4, h5, h6⟩ := h
  unfold rErr at hs
  simp only at *
  split_ifs at hs with hd
  cases err with
  | nil => exact absurd hs (by simp)
  | cons b r =>
    simp only [Option.some.injEq] at hs
    subst hs
    refine ⟨⟨h1, by simpa using h2, h3, ?_, ?_, fun x => by simp [hd] at x⟩, ?_⟩
    · cases rd with
      | done f g => exact absurd (h4.2.2.2.2 hd) (by simp)
      | _ => exact h4
    · simp only [List.length_cons] at h5 ⊢; omega
    · simp only [RCfg.mu, List.length_cons]; omega

theorem rStep_ok {n : RNet β} {todo : Print β} {w : RWho} {c c' : RCfg β} (h : RInv n todo c) (hs : rStep n w c = some c') :
    RInv n todo c' ∧ c'.mu < c.mu := by
  cases w with
  | child => exact rChild_ok h hs
  | out => exact rOut_ok h hs
  | err => exact rErr_ok h hs

theorem rAfter_ok (n : RNet β) (todo : Print β) (f : ℕ → RWho) (t : ℕ) : RInv n todo (rAfter n (rStart todo) f t) := by
  induction t with
  | zero => exact rinv_start n todo
  | succ t ih =>
    simp only [rAfter, rTurn]
    cases hs : rStep n (f t) (rAfter n (rStart todo) f t) with
    | none => exact ih
    | some c' => exact (rStep_ok ih hs).1

/-- reading has ended -/
def Rd.over : Rd β → Prop
  | .done _ _ => True
  | .bad _ => True
  | _ => False

theorem rProgress {n : RNet β} {todo : Print β} {c : RCfg β} (h : RInv n todo c) (ho : 0 < n.capOut)
    (he : n.drain = true ∧ 0 < n.capErr ∨ (errs todo).length ≤ n.capErr) (hf : ¬ c.rd.over) : ∃ w c', rStep n w c = some c' := by
  obtain ⟨td, live, out, err, rd, eg⟩ := c
  obtain ⟨h1, h2, h3, h4, h5, h6⟩ := h
  simp only at *
  -- the program can move, or its errors can be read
  have child : out = [] → live = true → ∃ w c', rStep n w (⟨td, live, out, err, rd, eg⟩ : RCfg β) = some c' := by
    rintro rfl rfl
    cases td with
    | nil => exact ⟨.child, _, rfl⟩
    | cons e r =>
      obtain ⟨k, b⟩ := e
      cases k with
      | false => exact ⟨.child, _, by simp only [rStep, rChild]; rw [if_pos (by simpa using ho)]⟩
      | true =>
        by_cases hc : err.length < n.capErr
        · exact ⟨.child, _, by simp only [rStep, rChild]; rw [if_pos hc]⟩
        · cases hd : n.drain with
          | true =>
            cases err with
            | cons x l => exact ⟨.err, _, by simp only [rStep, rErr]; rw [if_pos hd]⟩
            | nil =>
              rcases he with he | he
              · exact absurd he.2 (by simpa using hc)
              · have : (errs todo).length = 0 := by simp only [List.length_nil] at hc; omega
                rw [← h2] at this
                simp [errs] at this
          | false =>
            have he := he.resolve_left (by simp [hd])
            rw [← h2, h6 hd] at he
            simp [errs] at he
            omega
  cases rd with
  | done f g => exact absurd trivial hf
  | bad g => exact absurd trivial hf
  | line g =>
    cases out with
    | cons b r => exact ⟨.out, _, rfl⟩
    | nil =>
      cases hl : live with
      | true => rw [← hl]; exact child rfl hl
      | false => exact ⟨.out, _, rfl⟩
  | rest f g =>
    cases out with
    | cons b r => exact ⟨.out, _, rfl⟩
    | nil =>
      cases hl : live with
      | true => rw [← hl]; exact child rfl hl
      | false =>
        cases hd : n.drain with
        | false => exact ⟨.out, _, by simp only [rStep, rOut, hd]; rfl⟩
        | true =>
          cases err with
          | nil => exact ⟨.out, _, by simp only [rStep, rOut, hd]; rfl⟩
          | cons x l => exact ⟨.err, _, by simp only [rStep, rErr, hd]; rfl⟩

/-- what reading the output of a program should give: the first line and the rest, or an exception -/
def Spec.answer (n : RNet β) (todo : Print β) (r : Rd β) : Prop :=
  (n.size (first n.eol (outs todo)) = true ∧ ∃ rest, r = .done (first n.eol (outs todo)) rest ∧
    first n.eol (outs todo) ++ rest = outs todo) ∨
  (n.size (first n.eol (outs todo)) = false ∧ r = .bad (first n.eol (outs todo)))

/-- **C177**, as the list has it: reading an image finishes, with what the program prints, whatever the order in which
python and the program run -/
def C177_statement : Prop :=
  ∀ (n : RNet UInt8) (todo : Print UInt8) (f : ℕ → RWho), 0 < n.capOut → 0 < n.capErr → Fair f →
    ∃ t, Spec.answer n todo (rAfter n (rStart todo) f t).rd

theorem rFinishes (n : RNet β) (todo : Print β) (f : ℕ → RWho) (ho : 0 < n.capOut)
    (he : n.drain = true ∧ 0 < n.capErr ∨ (errs todo).length ≤ n.capErr) (hf : Fair f) :
    ∃ t, (rAfter n (rStart todo) f t).rd.over :=
  fair_finish (rStep n) RCfg.mu (RInv n todo) (fun c => c.rd.over) (fun _ _ _ h hs => rStep_ok h hs)
    (fun _ h hx => rProgress h ho he hx) f hf _ (fun _ => rfl) (rinv_start n todo)

theorem answer_of {n : RNet β} {todo : Print β} {c : RCfg β} (h : RInv n todo c) (ho : c.rd.over) : Spec.answer n todo c.rd := by
  obtain ⟨td, live, out, err, rd, eg⟩ := c
  obtain ⟨h1, h2, h3, h4, h5, h6⟩ := h
  simp only at *
  cases rd with
  | line g => exact absurd ho (by simp [Rd.over])
  | rest f g => exact absurd ho (by simp [Rd.over])
  | bad g =>
    obtain ⟨rfl, h⟩ := h4
    exact Or.inr ⟨h, rfl⟩
  | done f g =>
    obtain ⟨rfl, h, hl, hout, -⟩ := h4
    simp only at hl hout
    have htd := h3 hl
    subst htd
    subst hout
    refine Or.inl ⟨h, g, rfl, ?_⟩
    simpa [Rd.got, outs] using h1

/-- **C177**: reading finishes when the program's error messages fit into their pipe -/
theorem C177_partial (n : RNet β) (todo : Print β) (f : ℕ → RWho) (ho : 0 < n.capOut) (he : (errs todo).length ≤ n.capErr)
    (hf : Fair f) : ∃ t, Spec.answer n todo (rAfter n (rStart todo) f t).rd := by
  obtain ⟨t, ht⟩ := rFinishes n todo f ho (Or.inr he) hf
  exact ⟨t, answer_of (rAfter_ok n todo f t) ht⟩

/-- **C177**: otherwise reading a picture never ends -/
theorem C177_hangs (n : RNet β) (todo : Print β) (f : ℕ → RWho) (t : ℕ) (hd : n.drain = false) (he : n.capErr < (errs todo).length)
    (hs : n.size (first n.eol (outs todo)) = true) : ¬ (rAfter n (rStart todo) f t).rd.over := by
  intro ho
  have h := rAfter_ok n todo f t
  have ha := answer_of h ho
  obtain ⟨-, rest, hr, -⟩ := ha.resolve_right (by simp [hs])
  have h4 := h.rd
  rw [hr] at h4
  have htd := h.ends h4.2.2.1
  have h2 := h.err
  rw [htd, h.quiet hd] at h2
  rw [← h2] at he
  have := h.cap
  simp [errs] at he
  omega

/-- **C177**: reading a header, which takes the errors as well, always finishes with both texts -/
theorem C177_header (n : RNet β) (todo : Print β) (f : ℕ → RWho) (ho : 0 < n.capOut) (he : 0 < n.capErr) (hd : n.drain = true)
    (hs : ∀ l, n.size l = true) (hf : Fair f) :
    ∃ t a b, (rAfter n (rStart todo) f t).rd = .done a b ∧ a ++ b = outs todo ∧ (rAfter n (rStart todo) f t).errGot = errs todo := by
  obtain ⟨t, ht⟩ := rFinishes n todo f ho (Or.inl ⟨hd, he⟩) hf
  have h := rAfter_ok n todo f t
  obtain ⟨-, rest, hr, e⟩ := (answer_of h ht).resolve_right (by simp [hs])
  refine ⟨t, _, _, hr, e, ?_⟩
  have h4 := h.rd
  rw [hr] at h4
  have h2 := h.err
  rw [h4.2.2.2.2 hd, h.ends h4.2.2.1] at h2
  simpa [errs] using h2

/-- the three kinds of turns one after the other -/
def rRobin (t : ℕ) : RWho := match t % 3 with
  | 0 => .child
  | 1 => .out
  | _ => .err

theorem rRobin_fair : Fair rRobin := by
  intro w t
  cases w with
  | child => exact ⟨3 * t, by omega, by simp [rRobin]⟩
  | out => exact ⟨3 * t + 1, by omega, by have : (3 * t + 1) % 3 = 1 := by omega
                                          simp [rRobin, this]⟩
  | err => exact ⟨3 * t + 2, by omega, by have : (3 * t + 2) % 3 = 2 := by omega
                                          simp [rRobin, this]⟩

theorem C177_refuted : ¬ C177_statement := by
  intro h
  obtain ⟨t, ht⟩ := h ⟨1, 1, fun _ => false, fun _ => true, false⟩ [(true, 0), (true, 0)] rRobin (by simp) (by simp) rRobin_fair
  obtain ⟨-, rest, hr, -⟩ := ht.resolve_right (by simp)
  refine C177_hangs (⟨1, 1, fun _ => false, fun _ => true, false⟩ : RNet UInt8) [(true, 0), (true, 0)] rRobin t rfl
    (by simp [errs]) rfl ?_
  rw [hr]
  trivial

-- a picture of a line and two bytes with a message of one byte
example : ∃ t, Spec.answer (⟨1, 1, (· == 10), fun _ => true, false⟩ : RNet UInt8) [(false, 49), (true, 33), (false, 10), (false, 7), (false, 8)]
    (rAfter ⟨1, 1, (· == 10), fun _ => true, false⟩ (rStart [(false, 49), (true, 33), (false, 10), (false, 7), (false, 8)]) rRobin t).rd :=
  C177_partial _ _ rRobin (by simp) (by simp [errs]) rRobin_fair

end Verif.Pipes
