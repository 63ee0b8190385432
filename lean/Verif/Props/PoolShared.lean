import Verif.Model.PoolShared
import Mathlib.Tactic.Common

/-! C204: functions that leave something behind. -/

namespace Verif.Shared
variable {V E R G A L : Type}

/-- "result is equivalent to" the loop, for functions that use memory -/
def C204_statement (m : Mode) : Prop :=
  ∀ (V E R G A L : Type) (p : Prog V E R G A L) (n : ℕ) (args : List (List V)) (g : G) (a : A) (es : List TEv) (st : TSt E R G A L)
    (o o' : Except E (List R)) (g' : G) (a' : A),
    trun p m n args (tinit g a g) es = some st → outcome args st = some o → Loop p args g a o' g' a' → o = o'

/-- Spec: first exception in argument order, or all results -/
def inOrder (f : List V → Except E R) : List (List V) → Except E (List R)
  | [] => .ok []
  | x :: xs => match f x with
    | .error e => .error e
    | .ok r => (inOrder f xs).map (r :: ·)

/-! ### results that do not depend on what other calls leave behind -/

/-- `I` is what calls leave true of the memory, `J x` what is true inside a call for `x`; under these the result is `f x` -/
structure Steady (p : Prog V E R G A L) (f : List V → Except E R) (I : G → A → Prop) (J : List V → L → Prop) : Prop where
  begins : ∀ x, J x (p.begin x)
  more : ∀ x l g a l' g' a', I g a → J x l → p.step l g a = (.inl l', g', a') → I g' a' ∧ J x l'
  stop : ∀ x l g a r g' a', I g a → J x l → p.step l g a = (.inr r, g', a') → I g' a' ∧ r = f x

theorem eval_steady {p : Prog V E R G A L} {f : List V → Except E R} {I : G → A → Prop} {J : List V → L → Prop}
    (hs : Steady p f I J) {x : List V} {l : L} {g g' : G} {a a' : A} {r : Except E R} (h : Eval p l g a r g' a') (hI : I g a)
    (hJ : J x l) : I g' a' ∧ r = f x := by
  induction h with
  | stop h => exact hs.stop x _ _ _ _ _ _ hI hJ h
  | more h _ ih =>
    obtain ⟨h1, h2⟩ := hs.more x _ _ _ _ _ _ hI hJ h
    exact ih h1 h2

theorem loop_steady {p : Prog V E R G A L} {f : List V → Except E R} {I : G → A → Prop} {J : List V → L → Prop}
    (hs : Steady p f I J) {args : List (List V)} {g g' : G} {a a' : A} {o : Except E (List R)} (h : Loop p args g a o g' a')
    (hI : I g a) : o = inOrder f args := by
  induction h with
  | nil => rfl
  | fail h =>
    obtain ⟨-, h2⟩ := eval_steady hs h hI (hs.begins _)
    simp [inOrder, ← h2]
  | cons h _ ih =>
    obtain ⟨h1, h2⟩ := eval_steady hs h hI (hs.begins _)
    simp [inOrder, ← h2, ih h1]

/-- what holds at every moment of a steady run -/
structure TInv (p : Prog V E R G A L) (f : List V → Except E R) (I : G → A → Prop) (J : List V → L → Prop) (m : Mode)
    (args : List (List V)) (st : TSt E R G A L) : Prop where
  mem : match m with
    | .threads => I st.g st.a
    | .processes => ∀ w, I (st.wg w) (st.wa w)
  busy : ∀ w i l, st.busy w = some (i, l) → ∃ x, args[i]? = some x ∧ J x l
  done : ∀ i r, st.done i = some r → ∃ x, args[i]? = some x ∧ r = f x

theorem tinv_step {p : Prog V E R G A L} {f : List V → Except E R} {I : G → A → Prop} {J : List V → L → Prop} {m : Mode} {n : ℕ}
    (hs : Steady p f I J) {args : List (List V)} {st st' : TSt E R G A L} {e : TEv} (hi : TInv p f I J m args st)
    (hA : match m with
      | .threads => True
      | .processes => ∀ g' a', I g' a' → I g' st.a)
    (h : tstep p m n args st e = some st') : TInv p f I J m args st' ∧ (m = .processes → st'.a = st.a) := by
  obtain ⟨hm, hb, hd⟩ := hi
  cases e with
  | start w =>
    simp only [tstep] at h
    split at h
    · split at h
      · rename_i x hw hx
        simp at h; subst h
        refine ⟨⟨?_, ?_, hd⟩, fun _ => rfl⟩
        · cases m with
          | threads => exact hm
          | processes =>
            intro v
            by_cases hv : v = w
            · subst hv; simpa using hA _ _ (hm v)
            · simpa [Function.update_of_ne hv] using hm v
        · intro v i l hv
          by_cases hvw : v = w
          · subst hvw
            simp at hv
            exact ⟨x, by rw [← hv.1]; exact hx, by rw [← hv.2]; exact hs.begins x⟩
          · exact hb v i l (by simpa [Function.update_of_ne hvw] using hv)
      · simp at h
    · simp at h
  | tick w =>
    simp only [tstep] at h
    split at h
    · simp at h
    · rename_i i l hw
      obtain ⟨x, hx, hJ⟩ := hb w i l hw
      cases m with
      | threads =>
        simp only at h hm
        split at h
        · rename_i l' g' a' hst
          simp at h; subst h
          obtain ⟨h1, h2⟩ := hs.more x _ _ _ _ _ _ hm hJ hst
          refine ⟨⟨h1, ?_, hd⟩, by simp⟩
          intro v j l'' hv
          by_cases hvw : v = w
          · subst hvw
            simp at hv
            exact ⟨x, by rw [← hv.1]; exact hx, by rw [← hv.2]; exact h2⟩
          · exact hb v j l'' (by simpa [Function.update_of_ne hvw] using hv)
        · rename_i r g' a' hst
          simp at h; subst h
          obtain ⟨h1, h2⟩ := hs.stop x _ _ _ _ _ _ hm hJ hst
          refine ⟨⟨h1, ?_, ?_⟩, by simp⟩
          · intro v j l'' hv
            by_cases hvw : v = w
            · subst hvw; simp at hv
            · exact hb v j l'' (by simpa [Function.update_of_ne hvw] using hv)
          · intro j r' hj
            by_cases hji : j = i
            · subst hji
              simp at hj
              exact ⟨x, hx, by rw [← hj]; exact h2⟩
            · exact hd j r' (by simpa [Function.update_of_ne hji] using hj)
      | processes =>
        simp only at h hm
        split at h
        · rename_i l' g' a' hst
          simp at h; subst h
          obtain ⟨h1, h2⟩ := hs.more x _ _ _ _ _ _ (hm w) hJ hst
          refine ⟨⟨?_, ?_, hd⟩, fun _ => rfl⟩
          · intro v
            by_cases hv : v = w
            · subst hv; simpa using h1
            · simpa [Function.update_of_ne hv] using hm v
          intro v j l'' hv
          by_cases hvw : v = w
          · subst hvw
            simp at hv
            exact ⟨x, by rw [← hv.1]; exact hx, by rw [← hv.2]; exact h2⟩
          · exact hb v j l'' (by simpa [Function.update_of_ne hvw] using hv)
        · rename_i r g' a' hst
          simp at h; subst h
          obtain ⟨h1, h2⟩ := hs.stop x _ _ _ _ _ _ (hm w) hJ hst
          refine ⟨⟨?_, ?_, ?_⟩, fun _ => rfl⟩
          · intro v
            by_cases hv : v = w
            · subst hv; simpa using h1
            · simpa [Function.update_of_ne hv] using hm v
          · intro v j l'' hv
            by_cases hvw : v = w
            · subst hvw; simp at hv
            · exact hb v j l'' (by simpa [Function.update_of_ne hvw] using hv)
          · intro j r' hj
            by_cases hji : j = i
            · subst hji
              simp at hj
              exact ⟨x, hx, by rw [← hj]; exact h2⟩
            · exact hd j r' (by simpa [Function.update_of_ne hji] using hj)

theorem tinv_run {p : Prog V E R G A L} {f : List V → Except E R} {I : G → A → Prop} {J : List V → L → Prop} {m : Mode} {n : ℕ}
    (hs : Steady p f I J) {args : List (List V)} (es : List TEv) {st st' : TSt E R G A L} (hi : TInv p f I J m args st)
    (hA : match m with
      | .threads => True
      | .processes => ∀ g' a', I g' a' → I g' st.a)
    (h : trun p m n args st es = some st') : TInv p f I J m args st' := by
  induction es generalizing st with
  | nil => simp [trun] at h; subst h; exact hi
  | cons e es ih =>
    simp only [trun] at h
    split at h
    · simp at h
    · rename_i st1 h1
      obtain ⟨h2, h3⟩ := tinv_step hs hi hA h1
      refine ih h2 ?_ h
      cases m with
      | threads => trivial
      | processes => simp only [h3 rfl]; exact hA

theorem gather_steady {f : List V → Except E R} {done : ℕ → Option (Except E R)} {args : List (List V)}
    (hd : ∀ i r, done i = some r → ∃ x, args[i]? = some x ∧ r = f x) (k i : ℕ) (hk : i + k = args.length) {o : Except E (List R)}
    (h : gather done i k = some o) : o = inOrder f (args.drop i) := by
  induction k generalizing i o with
  | zero =>
    simp [gather] at h
    rw [List.drop_eq_nil_of_le (by omega), ← h]; rfl
  | succ k ih =>
    have hlt : i < args.length := by omega
    rw [List.drop_eq_getElem_cons hlt]
    simp only [gather] at h
    split at h
    · simp at h
    · rename_i e he
      obtain ⟨x, hx, hr⟩ := hd i _ he
      rw [List.getElem?_eq_getElem hlt, Option.some.injEq] at hx
      rw [← hx] at hr
      simp at h; subst h
      simp [inOrder, ← hr]
    · rename_i r he
      obtain ⟨x, hx, hr⟩ := hd i _ he
      rw [List.getElem?_eq_getElem hlt, Option.some.injEq] at hx
      rw [← hx] at hr
      obtain ⟨o', ho', rfl⟩ := Option.map_eq_some_iff.1 h
      have := ih (i + 1) (by omega) ho'
      simp [inOrder, ← hr, this]

/-- **C204, what holds.** A function whose result does not depend on what other calls leave behind (caches, logs, counters that
are only written): with threads and with processes, for every interleaving of the steps of the calls, the outcome is that of the
loop. For processes it must not matter either that the worker starts from another memory and that arguments are fresh copies. -/
theorem C204_results_partial (p : Prog V E R G A L) (f : List V → Except E R) (I : G → A → Prop) (J : List V → L → Prop)
    (hs : Steady p f I J) (m : Mode) (n : ℕ) (args : List (List V)) (g : G) (a : A) (g0 : G) (hI : I g a) (hI0 : I g0 a)
    (hA : ∀ g' a', I g' a' → I g' a) (es : List TEv) (st : TSt E R G A L)
    (hrun : trun p m n args (tinit g a g0) es = some st) (o : Except E (List R)) (ho : outcome args st = some o) :
    o = inOrder f args ∧ ∀ o' g' a', Loop p args g a o' g' a' → o = o' := by
  have h1 : TInv p f I J m args (tinit g a g0 : TSt E R G A L) := by
    refine ⟨?_, by simp [tinit], by simp [tinit]⟩
    cases m with
    | threads => exact hI
    | processes => exact fun _ => hI0
  have h2 := tinv_run hs es h1 (by cases m with
    | threads => trivial
    | processes => exact hA) hrun
  have h3 : o = inOrder f args := by
    have := gather_steady h2.done args.length 0 (by omega) ho
    simpa using this
  exact ⟨h3, fun o' g' a' hl => by rw [h3, loop_steady hs hl hI]⟩

/-! ### what is left behind -/

/-- **C204, processes leave nothing behind**: whatever the function does, the memory and the arguments of the caller stay as
they were. -/
theorem C204_caller (p : Prog V E R G A L) (n : ℕ) (args : List (List V)) (es : List TEv) (st st' : TSt E R G A L)
    (hrun : trun p .processes n args st es = some st') : st'.g = st.g ∧ st'.a = st.a := by
  induction es generalizing st with
  | nil => simp [trun] at hrun; subst hrun; exact ⟨rfl, rfl⟩
  | cons e es ih =>
    simp only [trun] at hrun
    split at hrun
    · simp at hrun
    · rename_i st1 h1
      obtain ⟨h2, h3⟩ := ih st1 hrun
      rw [h2, h3]
      cases e with
      | start w =>
        simp only [tstep] at h1
        repeat' split at h1
        all_goals simp at h1
        subst h1; exact ⟨rfl, rfl⟩
      | tick w =>
        simp only [tstep] at h1
        repeat' split at h1
        all_goals simp at h1
        all_goals subst h1; exact ⟨rfl, rfl⟩

/-! ### one worker -/

/-- calls made one after another on one memory, without stopping at an exception -/
inductive Chain (p : Prog V E R G A L) (a : A) : List (List V) → G → List (Except E R) → G → Prop
  | nil {g} : Chain p a [] g [] g
  | cons {x xs g r g' rs g''} : Eval p (p.begin x) g a r g' a → Chain p a xs g' rs g'' → Chain p a (x :: xs) g (r :: rs) g''

theorem chain_snoc {p : Prog V E R G A L} {a : A} {xs : List (List V)} {g g' g'' : G} {rs : List (Except E R)} {x : List V}
    {r : Except E R} (h : Chain p a xs g rs g') (hx : Eval p (p.begin x) g' a r g'' a) : Chain p a (xs ++ [x]) g (rs ++ [r]) g'' := by
  induction h with
  | nil => exact .cons hx .nil
  | cons h _ ih => exact .cons h (ih hx)

theorem chain_length {p : Prog V E R G A L} {a : A} {xs : List (List V)} {g g' : G} {rs : List (Except E R)} (h : Chain p a xs g rs g') :
    rs.length = xs.length := by
  induction h with
  | nil => rfl
  | cons _ _ ih => simp [ih]

theorem eval_det {p : Prog V E R G A L} {l : L} {g g' g'' : G} {a a' a'' : A} {r r' : Except E R} (h : Eval p l g a r g' a')
    (h' : Eval p l g a r' g'' a'') : r = r' ∧ g' = g'' ∧ a' = a'' := by
  induction h with
  | stop h =>
    cases h' with
    | stop h2 => rw [h] at h2; simpa using h2
    | more h2 _ => rw [h] at h2; simp at h2
  | more h _ ih =>
    cases h' with
    | stop h2 => rw [h] at h2; simp at h2
    | more h2 h3 =>
      rw [h] at h2
      simp only [Prod.mk.injEq, Sum.inl.injEq] at h2
      obtain ⟨rfl, rfl, rfl⟩ := h2
      exact ih h3

/-- the futures filled from a chain of calls gather to what the loop returns -/
theorem gather_chain {p : Prog V E R G A L} {a : A} {args xs : List (List V)} {g g' g'' : G} {a'' : A} {rs : List (Except E R)}
    (hc : Chain p a xs g rs g') (hx : xs <+: args) {o o' : Except E (List R)} (hl : Loop p args g a o' g'' a'')
    (done : ℕ → Option (Except E R)) (i : ℕ) (hd : ∀ j, done (i + j) = rs[j]?) (h : gather done i args.length = some o) : o = o' := by
  induction args generalizing xs g rs o o' i with
  | nil =>
    cases hl
    simp [gather] at h
    exact h.symm
  | cons y ys ih =>
    simp only [List.length_cons, gather] at h
    have h0 := hd 0
    rw [Nat.add_zero] at h0
    cases hc with
    | nil => simp [h0] at h
    | @cons x xs' _ r g1 rs' _ he hc' =>
      obtain ⟨rfl, hx'⟩ := List.cons_prefix_cons.1 hx
      rw [List.getElem?_cons_zero] at h0
      rw [h0] at h
      cases hl with
      | fail he' =>
        obtain ⟨rfl, -, -⟩ := eval_det he he'
        simp at h
        exact h.symm
      | cons he' hl' =>
        obtain ⟨rfl, rfl, rfl⟩ := eval_det he he'
        obtain ⟨q, hq, rfl⟩ := Option.map_eq_some_iff.1 h
        rw [ih hc' hx' hl' (i + 1) (fun j => by
          have := hd (j + 1)
          rw [List.getElem?_cons_succ] at this
          rw [← this]; congr 1; omega) hq]

/-- one worker process: a chain of finished calls, and possibly one that is going on -/
structure OneInv (p : Prog V E R G A L) (args : List (List V)) (g : G) (a : A) (st : TSt E R G A L) : Prop where
  arg : st.a = a
  ex : ∃ k rs gk, k ≤ args.length ∧ Chain p a (args.take k) g rs gk ∧ (∀ j, st.done j = rs[j]?) ∧
    ((st.busy 0 = none ∧ st.next = k ∧ st.wg 0 = gk) ∨
      ∃ l, ∃ hk : k < args.length, st.busy 0 = some (k, l) ∧ st.next = k + 1 ∧ st.wa 0 = a ∧
        ∀ r g' a', Eval p l (st.wg 0) a r g' a' → Eval p (p.begin args[k]) gk a r g' a')
  idle : ∀ w, w ≠ 0 → st.busy w = none

theorem one_step {p : Prog V E R G A L} (hkeep : ∀ l g a, (p.step l g a).2.2 = a) {args : List (List V)} {g : G} {a : A}
    {st st' : TSt E R G A L} {e : TEv} (hi : OneInv p args g a st) (h : tstep p .processes 1 args st e = some st') :
    OneInv p args g a st' := by
  obtain ⟨ha, ⟨k, rs, gk, hkl, hc, hd, hb⟩, hw⟩ := hi
  cases e with
  | start w =>
    simp only [tstep] at h
    split at h
    · rename_i hw1
      have hw0 : w = 0 := by omega
      subst hw0
      split at h
      · rename_i x hbz hx
        simp at h; subst h
        rcases hb with ⟨-, hn, hg⟩ | ⟨l, hk, hb', -⟩
        · obtain ⟨hlt, hxe⟩ := List.getElem?_eq_some_iff.1 hx
          refine ⟨ha, ⟨k, rs, gk, hkl, hc, hd, Or.inr ⟨p.begin x, hn ▸ hlt, ?_, by simp [hn], by simp [ha], ?_⟩⟩, ?_⟩
          · simp [hn]
          · intro r g' a' he
            rw [hg] at he
            subst hn
            rw [hxe]
            exact he
          · intro v hv
            simp [Function.update_of_ne hv, hw v hv]
        · rw [hb'] at hbz; simp at hbz
      · simp at h
    · simp at h
  | tick w =>
    simp only [tstep] at h
    split at h
    · simp at h
    · rename_i i l hwl
      have hw0 : w = 0 := by
        by_contra hne
        rw [hw w hne] at hwl; simp at hwl
      subst hw0
      rcases hb with ⟨hb', -⟩ | ⟨l0, hk, hb', hn, hwa, hev⟩
      · rw [hb'] at hwl; simp at hwl
      · rw [hb'] at hwl
        simp only [Option.some.injEq, Prod.mk.injEq] at hwl
        obtain ⟨rfl, rfl⟩ := hwl
        have hks := hkeep l0 (st.wg 0) (st.wa 0)
        split at h
        · rename_i l' g' a' hst
          rw [hst] at hks
          simp at h hks; subst h
          refine ⟨ha, ⟨k, rs, gk, hkl, hc, hd, Or.inr ⟨l', hk, by simp, hn, by simp [hks, hwa], ?_⟩⟩, ?_⟩
          · intro r g2 a2 he
            simp at he
            refine hev r g2 a2 (.more (by rw [← hwa, hst]) ?_)
            rw [hks, hwa]
            exact he
          · intro v hv
            simp [Function.update_of_ne hv, hw v hv]
        · rename_i r g' a' hst
          rw [hst] at hks
          simp at h hks; subst h
          have he := hev r g' a (.stop (by rw [← hwa, hst, hks]))
          have hlen : rs.length = k := by
            rw [chain_length hc]; simp; omega
          refine ⟨ha, ⟨k + 1, rs ++ [r], g', hk, ?_, ?_, Or.inl ⟨by simp, hn, by simp⟩⟩, ?_⟩
          · rw [List.take_succ_eq_append_getElem hk]
            exact chain_snoc hc he
          · intro j
            by_cases hj : j = k
            · subst hj
              rw [← hlen]
              simp
            · simp only [Function.update_of_ne hj, hd j]
              by_cases hj' : j < rs.length
              · rw [List.getElem?_append_left hj']
              · rw [List.getElem?_eq_none (by omega), List.getElem?_eq_none (by simp; omega)]
          · intro v hv
            simp [Function.update_of_ne hv, hw v hv]

/-- **C204, one worker process** (`cap=1`, `context='fork'`): a function may use and change the interpreter's memory in any way;
as long as it does not change its arguments, the outcome is that of the loop. -/
theorem C204_one_partial (p : Prog V E R G A L) (hkeep : ∀ l g a, (p.step l g a).2.2 = a) (args : List (List V)) (g : G) (a : A)
    (es : List TEv) (st : TSt E R G A L) (hrun : trun p .processes 1 args (tinit g a g) es = some st) (o o' : Except E (List R))
    (ho : outcome args st = some o) (g' : G) (a' : A) (hl : Loop p args g a o' g' a') : o = o' := by
  have key : ∀ (es : List TEv) (st0 : TSt E R G A L), OneInv p args g a st0 → trun p .processes 1 args st0 es = some st →
      OneInv p args g a st := by
    intro es
    induction es with
    | nil => intro st0 h0 h; simp [trun] at h; subst h; exact h0
    | cons e es ih =>
      intro st0 h0 h
      simp only [trun] at h
      split at h
      · simp at h
      · rename_i st1 h1
        exact ih st1 (one_step hkeep h0 h1) h
  obtain ⟨-, ⟨k, rs, gk, -, hc, hd, -⟩, -⟩ := key es _ ⟨rfl, ⟨0, [], g, by simp, .nil, by simp [tinit],
    Or.inl ⟨rfl, rfl, rfl⟩⟩, by simp [tinit]⟩ hrun
  exact gather_chain hc (List.take_prefix _ _) hl st.done 0 (by simpa using hd) ho

/-! ### what does not hold -/

/-- a function that numbers its calls: it returns the counter it finds and increases it -/
def counter : Prog Unit Empty ℕ ℕ Unit Unit := ⟨fun _ => (), fun _ g a => (.inr (.ok g), g + 1, a)⟩

theorem counter_loop : Loop counter [[], []] 0 () (.ok [0, 1]) 2 () :=
  .cons (r := 0) (o := .ok [1]) (.stop rfl) (.cons (r := 1) (o := .ok []) (.stop rfl) .nil)

/-- two threads, the second call gets there first: `[1, 0]` -/
theorem C204_refuted_threads : ¬ C204_statement .threads := by
  intro h
  have := h Unit Empty ℕ ℕ Unit Unit counter 2 [[], []] 0 () [.start 0, .start 1, .tick 1, .tick 0] _ (.ok [1, 0]) (.ok [0, 1]) 2 ()
    rfl rfl counter_loop
  simp at this

/-- two processes, each with its own counter: `[0, 0]` -/
theorem C204_refuted_processes : ¬ C204_statement .processes := by
  intro h
  have := h Unit Empty ℕ ℕ Unit Unit counter 2 [[], []] 0 () [.start 0, .start 1, .tick 0, .tick 1] _ (.ok [0, 0]) (.ok [0, 1]) 2 ()
    rfl rfl counter_loop
  simp at this

/-- a function that numbers its calls in one of its arguments: even a single worker process returns `[0, 0]` -/
def argCounter : Prog Unit Empty ℕ Unit ℕ Unit := ⟨fun _ => (), fun _ g a => (.inr (.ok a), g, a + 1)⟩

example : (trun argCounter .processes 1 [[], []] (tinit () 0 ()) [.start 0, .tick 0, .start 0, .tick 0]).bind
    (fun st => outcome (V := Unit) [[], []] st) = some (.ok [0, 0]) := rfl

example : Loop argCounter [[], []] () 0 (.ok [0, 1]) () 2 :=
  .cons (r := 0) (o := .ok [1]) (.stop rfl) (.cons (r := 1) (o := .ok []) (.stop rfl) .nil)

/-- reading and writing the counter in two steps: with threads both calls can get the same number -/
def slow : Prog Unit Empty ℕ ℕ Unit (Option ℕ) :=
  ⟨fun _ => none, fun l g a => match l with | none => (.inl (some g), g, a) | some k => (.inr (.ok k), k + 1, a)⟩

example : (trun slow .threads 2 [[], []] (tinit 0 () 0) [.start 0, .start 1, .tick 0, .tick 1, .tick 0, .tick 1]).bind
    (fun st => (outcome (V := Unit) [[], []] st).map fun o => (o, st.g)) = some (.ok [0, 0], 1) := rfl

/-- the loop stops at the first exception; with threads the calls after it are made all the same and leave their traces -/
def failing : Prog ℕ Unit ℕ ℕ Unit (List ℕ) :=
  ⟨id, fun l g a => match l with | [] => (.inr (.error ()), g, a) | k :: _ => (.inr (.ok k), g + k, a)⟩

example : Loop failing [[], [5]] 0 () (.error ()) 0 () := .fail (.stop rfl)

example : (trun failing .threads 2 [[], [5]] (tinit 0 () 0) [.start 0, .start 1, .tick 1, .tick 0]).bind
    (fun st => (outcome [[], [5]] st).map fun o => (o, st.g)) = some (.error (), 5) := rfl

/-! ### the hypotheses are met -/

/-- squares with a cache that is filled as the calls go along (one entry: argument and its square) -/
def cached : Prog ℕ Empty ℕ (Option (ℕ × ℕ)) Unit ℕ :=
  ⟨fun x => x.headD 0, fun l g a => match g with
    | some (k, q) => if k = l then (.inr (.ok q), g, a) else (.inr (.ok (l * l)), some (l, l * l), a)
    | none => (.inr (.ok (l * l)), some (l, l * l), a)⟩

theorem cached_steady : Steady cached (fun x => .ok (x.headD 0 * x.headD 0)) (fun g _ => ∀ k q, g = some (k, q) → q = k * k)
    (fun x l => l = x.headD 0) := by
  refine ⟨fun x => rfl, ?_, ?_⟩
  · intro x l g a l' g' a' _ _ h
    rcases g with _ | ⟨k, q⟩
    · simp [cached] at h
    · simp only [cached] at h
      split at h <;> simp at h
  · intro x l g a r g' a' hI hJ h
    rcases g with _ | ⟨k, q⟩
    · simp [cached] at h
      obtain ⟨rfl, rfl, -⟩ := h
      exact ⟨by rintro k q ⟨⟩; rfl, by rw [hJ]⟩
    · simp only [cached] at h
      split at h
      · rename_i hk
        simp at h
        obtain ⟨rfl, rfl, -⟩ := h
        exact ⟨hI, by rw [hI k q rfl, hk, hJ]⟩
      · simp at h
        obtain ⟨rfl, rfl, -⟩ := h
        exact ⟨by rintro k q ⟨⟩; rfl, by rw [hJ]⟩

example : (trun cached .threads 2 [[3], [4], [3]] (tinit none () none)
    [.start 0, .start 1, .tick 1, .start 1, .tick 1, .tick 0]).bind (fun st => outcome [[3], [4], [3]] st) =
    some (.ok [9, 16, 9]) := rfl

example : ∀ l g a, (counter.step l g a).2.2 = a := fun _ _ _ => rfl

end Verif.Shared
