import Mathlib.Algebra.Order.Ring.Rat
import Verif.Lemmas.CacheOne
import Verif.Spec.Live
/-! # C173, C174: metric sets, the objects they share with the caller, and assignments to their attributes -/
namespace Verif.Live
open Verif.Cache
variable {Cont S Slot Val : Type} [DecidableEq Slot]

/-! ## The formulas and the cached bodies -/

theorem evalBody_bodyOf (rd : Name → Option Val) (f : List Val → Val) (ms : List Name) (acc : List Val) :
    Cache.Spec.evalBody rd (bodyOf f ms acc) = (ms.mapM rd).map fun vs => f (acc ++ vs) := by
  induction ms generalizing acc with
  | nil => simp [bodyOf, Cache.Spec.evalBody]
  | cons m ms ih =>
    simp only [bodyOf, Cache.Spec.evalBody, List.mapM_cons]
    cases h : rd m with
    | none => simp
    | some v =>
      simp only [Option.bind_some, ih]
      cases h2 : ms.mapM rd with
      | none => simp
      | some vs => simp

theorem value_eq (C : Code Cont S Slot Val) (hname : ∀ k m, C.name (C.slot k m) = m) (st : St Cont S Slot Val) (o : Nat)
    (n : Nat) (m : Name) : Cache.Spec.value (classes C st) o n m = Spec.metric C (dataOf st o) n m := by
  induction n generalizing m with
  | zero => rfl
  | succ n ih =>
    have e : Cache.Spec.value (classes C st) o n = Spec.metric C (dataOf st o) n := funext ih
    rw [Cache.Spec.value, e]
    simp only [classes, evalBody_bodyOf, hname, Spec.metric, List.nil_append]
    rfl

theorem isValue_iff (C : Code Cont S Slot Val) (hname : ∀ k m, C.name (C.slot k m) = m) (st : St Cont S Slot Val)
    (o : Nat) (m : Name) (v : Val) :
    Cache.Spec.IsValue (classes C st) o m v ↔ Spec.Means C (dataOf st o) m v := by
  simp only [Cache.Spec.IsValue, Spec.Means, value_eq C hname]


/-! ## Steps -/

theorem read_some (C : Code Cont S Slot Val) (hname : ∀ k m, C.name (C.slot k m) = m) (st : St Cont S Slot Val) (o : Nat)
    (m : Name) : ∃ v c, readC (classes C st) o 9 m st.caches = some (v, c) := by
  have hd : ∀ m m' : Name, m' ∈ deps m → rank m' < rank m := by
    intro m m' h; cases m <;> simp [deps] at h <;> (try rcases h with rfl | rfl | rfl) <;> (try subst h) <;> (try rcases h with rfl | rfl) <;> decide
  have hA : Cache.Spec.Acyclic (classes C st) rank := by
    intro o m
    simp only [classes, hname]
    exact readsOnly_bodyOf _ _ _ _ (fun m' hm' => hd m m' hm')
  have := readC_total (classes C st) rank hA o 9 m st.caches (by cases m <;> simp [rank])
  obtain ⟨⟨v, c⟩, h⟩ := Option.isSome_iff_exists.1 this
  exact ⟨v, c, h⟩

theorem read_fst (C : Code Cont S Slot Val) (st : St Cont S Slot Val) (o : Nat) (m : Name) :
    (read C st o m).1.heap = st.heap ∧ (read C st o m).1.next = st.next ∧ (read C st o m).1.objs = st.objs ∧
      (read C st o m).1.count = st.count := by
  unfold read
  split <;> simp

theorem right_iff (C : Code Cont S Slot Val) (hname : ∀ k m, C.name (C.slot k m) = m) (st : St Cont S Slot Val) (o : Nat) :
    RightFor (classes C st) o st.caches ↔ Spec.Fresh C st o := by
  unfold RightFor Spec.Fresh
  simp only [isValue_iff C hname]
  rfl

theorem right_read (C : Code Cont S Slot Val) (hname : ∀ k m, C.name (C.slot k m) = m) (st : St Cont S Slot Val)
    (o o' : Nat) (m : Name) (h : Spec.Fresh C st o) : Spec.Fresh C (read C st o' m).1 o := by
  obtain ⟨v, c, hc⟩ := read_some C hname st o' m
  have hr : (read C st o' m).1 = { st with caches := c } := by simp [read, hc]
  rw [hr]
  by_cases ho : o' = o
  · subst ho
    have := (readC_right _ _ _ _ _ _ _ ((right_iff C hname st o').2 h) hc).2
    exact (right_iff C hname { st with caches := c } o').1 this
  · intro s w hs m' hm'
    exact h s w (readC_others _ _ _ _ _ _ _ hc s o w (Ne.symm ho) hs) m' hm'

theorem means_read (C : Code Cont S Slot Val) (hname : ∀ k m, C.name (C.slot k m) = m) (st : St Cont S Slot Val)
    (o : Nat) (m : Name) (h : Spec.Fresh C st o) :
    ∃ v, (read C st o m).2 = some v ∧ Spec.Means C (dataOf st o) m v := by
  obtain ⟨v, c, hc⟩ := read_some C hname st o m
  refine ⟨v, by simp [read, hc], ?_⟩
  exact (isValue_iff C hname st o m v).1 (readC_right _ _ _ _ _ _ _ ((right_iff C hname st o).2 h) hc).1

theorem means_unique (C : Code Cont S Slot Val) (hname : ∀ k m, C.name (C.slot k m) = m) (st : St Cont S Slot Val)
    (o : Nat) (m : Name) (v w : Val) (h1 : Spec.Means C (dataOf st o) m v) (h2 : Spec.Means C (dataOf st o) m w) :
    v = w :=
  Cache.Spec.isValue_unique _ _ _ _ _ ((isValue_iff C hname st o m v).2 h1) ((isValue_iff C hname st o m w).2 h2)

theorem dataOf_congr {st st' : St Cont S Slot Val} {o : Nat} (ho : st'.objs o = st.objs o)
    (hh : ∀ r ∈ Spec.refs (st.objs o), st'.heap r = st.heap r) : dataOf st' o = dataOf st o := by
  simp only [Spec.refs, List.mem_cons, List.not_mem_nil, or_false, forall_eq_or_imp, forall_eq] at hh
  simp only [dataOf, ho, hh]

theorem placed_old (C : Code Cont S Slot Val) (st : St Cont S Slot Val) (k : Kind) (vec om lum vm : Nat) (s : S) (o : Nat)
    (he : Spec.Exists st o) (hq : C.full (st.heap vm) = true ∨ om ∉ Spec.refs (st.objs o)) :
    dataOf (placed C st k vec om lum vm s) o = dataOf st o ∧ (placed C st k vec om lum vm s).objs o = st.objs o := by
  have ho : (placed C st k vec om lum vm s).objs o = st.objs o := by
    simp only [placed]
    rw [Function.update_of_ne (by have := he.1; omega)]
  refine ⟨dataOf_congr ho ?_, ho⟩
  intro r hr
  have hlt := he.2 r hr
  simp only [placed, newHeap]
  rw [if_neg (by omega), if_neg (by omega), if_neg (by omega), if_neg (by omega), if_neg]
  rintro ⟨rfl, hf⟩
  rcases hq with h | h
  · rw [h] at hf; simp at hf
  · exact h hr

/-- A quiet step changes nothing the metric set sees, and keeps what is remembered about it right. -/
theorem quiet_step (C : Code Cont S Slot Val) (hname : ∀ k m, C.name (C.slot k m) = m) (st : St Cont S Slot Val) (o : Nat)
    (op : Op Cont S) (he : Spec.Exists st o) (hq : Spec.Quiet C st o op) (hR : Spec.Fresh C st o) :
    Spec.Fresh C (step C st op).1 o ∧ dataOf (step C st op).1 o = dataOf st o ∧
      (step C st op).1.objs o = st.objs o ∧ Spec.Exists (step C st op).1 o := by
  have same : ∀ st' : St Cont S Slot Val, st'.caches = st.caches → dataOf st' o = dataOf st o → st'.objs o = st.objs o →
      Spec.Fresh C st' o := by
    intro st' h1 h2 h3 s v hs m hm
    rw [h1] at hs; rw [h3] at hm; rw [h2]
    exact hR s v hs m hm
  cases op with
  | new c =>
    have hd : dataOf (step C st (.new c)).1 o = dataOf st o := dataOf_congr rfl fun r hr => by
      simp only [step]; rw [Function.update_of_ne (by have := he.2 r hr; omega)]
    exact ⟨same _ rfl hd rfl, hd, rfl, he.1, fun r hr => Nat.lt_succ_of_lt (he.2 r hr)⟩
  | write r c =>
    have hd : dataOf (step C st (.write r c)).1 o = dataOf st o := dataOf_congr rfl fun r' hr => by
      simp only [step]; rw [Function.update_of_ne]; rintro rfl; exact hq hr
    exact ⟨same _ rfl hd rfl, hd, rfl, he⟩
  | assign o' s =>
    have ho : (step C st (.assign o' s)).1.objs o = st.objs o := by
      simp only [step]; rw [Function.update_of_ne (Ne.symm hq)]
    have hd : dataOf (step C st (.assign o' s)).1 o = dataOf st o := dataOf_congr ho fun _ _ => rfl
    exact ⟨same _ rfl hd ho, hd, ho, he.1, by rw [ho]; exact he.2⟩
  | read o' m =>
    simp only [step]
    split
    · obtain ⟨h1, h2, h3, h4⟩ := read_fst C st o' m
      have ho : (read C st o' m).1.objs o = st.objs o := by rw [h3]
      exact ⟨right_read C hname st o o' m hR, dataOf_congr ho fun r _ => by rw [h1], ho, by rw [h4]; exact he.1,
        by rw [h2, h3]; exact he.2⟩
    · exact ⟨hR, rfl, rfl, he⟩
  | make k vec om lum vm s =>
    obtain ⟨hd, ho⟩ := placed_old C st k vec om lum vm s o he hq
    have hP : Spec.Fresh C (placed C st k vec om lum vm s) o := same _ rfl hd ho
    have hE : Spec.Exists (placed C st k vec om lum vm s) o :=
      ⟨Nat.lt_succ_of_lt he.1, by rw [ho]; exact fun r hr => Nat.lt_of_lt_of_le (he.2 r hr) (by simp [placed])⟩
    simp only [step, construct]
    split
    · obtain ⟨h1, h2, h3, h4⟩ := read_fst C (placed C st k vec om lum vm s) st.count .radians
      have ho2 : (read C (placed C st k vec om lum vm s) st.count .radians).1.objs o =
          (placed C st k vec om lum vm s).objs o := by rw [h3]
      refine ⟨right_read C hname _ o _ _ hP, ?_, by rw [ho2, ho], ?_, ?_⟩
      · rw [dataOf_congr ho2 fun r _ => by rw [h1], hd]
      · rw [h4]; exact hE.1
      · rw [h2, ho2]; exact hE.2
    · exact ⟨hP, hd, ho, hE⟩

theorem quiet_run (C : Code Cont S Slot Val) (hname : ∀ k m, C.name (C.slot k m) = m) (st : St Cont S Slot Val) (o : Nat)
    (ops : List (Op Cont S)) (he : Spec.Exists st o) (hq : Spec.QuietAll C st o ops) (hR : Spec.Fresh C st o) :
    Spec.Fresh C (run C st ops) o ∧ dataOf (run C st ops) o = dataOf st o ∧ Spec.Exists (run C st ops) o := by
  induction ops generalizing st with
  | nil => exact ⟨hR, rfl, he⟩
  | cons op ops ih =>
    obtain ⟨h1, h2, _, h4⟩ := quiet_step C hname st o op he hq.1 hR
    obtain ⟨h5, h6, h7⟩ := ih _ h4 hq.2 h1
    exact ⟨h5, h6.trans h2, h7⟩

theorem step_read (C : Code Cont S Slot Val) (st : St Cont S Slot Val) (o : Nat) (m : Name) (h : o < st.count) :
    step C st (.read o m) = read C st o m := by
  simp [step, h]

/-- Nothing is remembered about objects that were not made. -/
def Sane (st : St Cont S Slot Val) : Prop := ∀ s o v, st.caches s = some (o, v) → o < st.count

theorem sane_read (C : Code Cont S Slot Val) (st : St Cont S Slot Val) (o : Nat) (m : Name) (h : Sane st)
    (ho : o < st.count) : Sane (read C st o m).1 := by
  unfold read
  split
  · rename_i v c hc
    intro s o' w hs
    by_cases hoo : o' = o
    · subst hoo; exact ho
    · exact h s o' w (readC_others _ _ _ _ _ _ _ hc s o' w hoo hs)
  · exact h

theorem sane_step (C : Code Cont S Slot Val) (st : St Cont S Slot Val) (op : Op Cont S) (h : Sane st) :
    Sane (step C st op).1 := by
  cases op with
  | new c => exact h
  | write r c => exact h
  | assign o s => exact h
  | read o m =>
    simp only [step]
    split
    · exact sane_read C st o m h (by assumption)
    · exact h
  | make k vec om lum vm s =>
    have hP : Sane (placed C st k vec om lum vm s) := fun s' o v hs => Nat.lt_succ_of_lt (h s' o v hs)
    simp only [step, construct]
    split
    · exact sane_read C _ _ _ hP (Nat.lt_succ_self _)
    · exact hP

theorem sane_run (C : Code Cont S Slot Val) (st : St Cont S Slot Val) (ops : List (Op Cont S)) (h : Sane st) :
    Sane (run C st ops) := by
  induction ops generalizing st with
  | nil => exact h
  | cons op ops ih => exact ih _ (sane_step C st op h)

theorem sane_start (st : St Cont S Slot Val) (h : Spec.Start st) : Sane st := by
  intro s o v hs; rw [h.2 s] at hs; simp at hs

/-! ## The new object -/

theorem placed_data (C : Code Cont S Slot Val) (st : St Cont S Slot Val) (k : Kind) (vec om lum vm : Nat) (s : S)
    (hl : lum < st.next) (ho : om < st.next) (hv : vm < st.next) (hne : vm ≠ om) :
    dataOf (placed C st k vec om lum vm s) st.count = Spec.snapshot C (argsOf st k vec om lum vm s) := by
  have hvm : newHeap C st k vec om lum vm s vm = st.heap vm := by
    simp only [newHeap]
    rw [if_neg (by omega), if_neg (by omega), if_neg (by omega), if_neg (by omega), if_neg (fun h => hne h.1)]
  have hfull : ∀ r, r < st.next → C.full (st.heap vm) = true → newHeap C st k vec om lum vm s r = st.heap r := by
    intro r hr hf
    simp only [newHeap]
    rw [if_neg (by omega), if_neg (by omega), if_neg (by omega), if_neg (by omega), if_neg (by simp [hf])]
  simp only [dataOf, placed, Function.update_self, newObj, Spec.snapshot, hvm]
  congr 1
  · simp [newHeap]
  · by_cases h : C.full (st.heap vm) = true ∧ k ≠ .colour
    · rw [if_pos h, if_pos (by exact h)]; exact hfull lum hl h.1
    · rw [if_neg h, if_neg (by exact h)]; simp [newHeap]
  · by_cases h : C.full (st.heap vm) = true ∧ C.corrects (argsOf st k vec om lum vm s) = false
    · rw [if_pos h, if_pos (by exact h)]; exact hfull om ho h.1
    · rw [if_neg h, if_neg (by exact h)]; simp [newHeap]
  · by_cases h : C.full (st.heap vm) = true ∧ k = .colour
    · rw [if_pos h, if_pos (by exact h)]; exact hfull lum hl h.1
    · rw [if_neg h, if_neg (by exact h)]; simp [newHeap]

theorem placed_fresh (C : Code Cont S Slot Val) (st : St Cont S Slot Val) (k : Kind) (vec om lum vm : Nat) (s : S)
    (h : Sane st) : Spec.Fresh C (placed C st k vec om lum vm s) st.count := by
  intro s' v hs
  exact absurd (h s' st.count v hs) (Nat.lt_irrefl _)

theorem placed_exists (C : Code Cont S Slot Val) (st : St Cont S Slot Val) (k : Kind) (vec om lum vm : Nat) (s : S)
    (hl : lum < st.next) (ho : om < st.next) (hv : vm < st.next) :
    Spec.Exists (placed C st k vec om lum vm s) st.count := by
  refine ⟨Nat.lt_succ_self _, ?_⟩
  intro r hr
  simp only [placed, Function.update_self, newObj, Spec.refs, List.mem_cons, List.not_mem_nil, or_false] at hr
  simp only [placed]
  rcases hr with rfl | rfl | rfl | rfl | rfl
  · omega
  · split <;> omega
  · split <;> omega
  · split <;> omega
  · omega

theorem construct_new (C : Code Cont S Slot Val) (hname : ∀ k m, C.name (C.slot k m) = m) (st : St Cont S Slot Val)
    (k : Kind) (vec om lum vm : Nat) (s : S) (h : Sane st) (hl : lum < st.next) (ho : om < st.next) (hv : vm < st.next)
    (hne : vm ≠ om) :
    Spec.Fresh C (construct C st k vec om lum vm s) st.count ∧
      dataOf (construct C st k vec om lum vm s) st.count = Spec.snapshot C (argsOf st k vec om lum vm s) ∧
      Spec.Exists (construct C st k vec om lum vm s) st.count ∧
      (construct C st k vec om lum vm s).objs st.count = newObj C st k vec om lum vm s ∧
      st.next + 4 ≤ (construct C st k vec om lum vm s).next := by
  have h1 := placed_fresh C st k vec om lum vm s h
  have h2 := placed_data C st k vec om lum vm s hl ho hv hne
  have h3 := placed_exists C st k vec om lum vm s hl ho hv
  unfold construct
  split
  · obtain ⟨e1, e2, e3, e4⟩ := read_fst C (placed C st k vec om lum vm s) st.count .radians
    have ho2 : (read C (placed C st k vec om lum vm s) st.count .radians).1.objs st.count =
        (placed C st k vec om lum vm s).objs st.count := by rw [e3]
    refine ⟨right_read C hname _ _ _ _ h1, ?_, ?_, ?_, ?_⟩
    · rw [dataOf_congr ho2 fun r _ => by rw [e1], h2]
    · exact ⟨by rw [e4]; exact h3.1, by rw [ho2, e2]; exact h3.2⟩
    · rw [ho2]; simp [placed]
    · rw [e2]; exact Nat.le_refl _
  · exact ⟨h1, h2, h3, by simp [placed], Nat.le_refl _⟩

theorem objs_step (C : Code Cont S Slot Val) (hname : ∀ k m, C.name (C.slot k m) = m) (st : St Cont S Slot Val) (o : Nat)
    (ops : List (Op Cont S)) (keep : Nat → Prop) (he : Spec.Exists st o) (hR : Spec.Fresh C st o)
    (hk : ∀ r ∈ Spec.refs (st.objs o), keep r) (h : ∀ op ∈ ops, Spec.Apart o keep op) : Spec.QuietAll C st o ops := by
  induction ops generalizing st with
  | nil => trivial
  | cons op ops ih =>
    have hq : Spec.Quiet C st o op := by
      have := h op (by simp)
      cases op with
      | new c => trivial
      | write r c => exact fun hr => this (hk r hr)
      | make k vec om lum vm s => exact Or.inr fun hr => this (hk om hr)
      | assign o' s => exact this
      | read o' m => trivial
    obtain ⟨h1, _, h3, h4⟩ := quiet_step C hname st o op he hq hR
    exact ⟨hq, ih _ h4 h1 (by rw [h3]; exact hk) fun op hop => h op (by simp [hop])⟩

/-! ## C173 -/

/-- Everything a metric set for a view of less than 360 degrees refers to, when it is made at a time when the next
reference is `n`: its own four arrays and the mapper. -/
def narrowKeep (n vm : Nat) (r : Nat) : Prop := (n ≤ r ∧ r < n + 4) ∨ r = vm

/-- The same for a 360 degree view: also the arrays of luminances and solid angles of the caller. -/
def fullKeep (n vm lum om : Nat) (r : Nat) : Prop := (n ≤ r ∧ r < n + 4) ∨ r = vm ∨ r = lum ∨ r = om

/-- C173, for the views where it holds best. A metric set for a view of less than 360 degrees is a snapshot of the
arrays it was made from: whatever happens before it is made and whatever happens afterwards - arrays overwritten, other
metric sets made from the same arrays (which may clip the solid angles), any reads in any order - every metric read later
is the one the formulas give for the arguments at the time it was made. Only the mapper, the set's own arrays and
its attributes have to be left alone. -/
theorem C173_snapshot_partial (C : Code Cont S Slot Val) (hname : ∀ k m, C.name (C.slot k m) = m)
    (st0 : St Cont S Slot Val) (h0 : Spec.Start st0) (before after : List (Op Cont S)) (k : Kind) (vec om lum vm : Nat)
    (s : S) (st : St Cont S Slot Val) (hst : st = run C st0 before)
    (hl : lum < st.next) (ho : om < st.next) (hv : vm < st.next) (hne : vm ≠ om)
    (hnarrow : C.full (st.heap vm) = false)
    (hafter : ∀ op ∈ after, Spec.Apart st.count (narrowKeep st.next vm) op) (m : Name) :
    ∃ v, (step C (run C (step C st (.make k vec om lum vm s)).1 after) (.read st.count m)).2 = some v ∧
      ∀ w, Spec.Means C (Spec.snapshot C (argsOf st k vec om lum vm s)) m w ↔ w = v := by
  have hS : Sane st := hst ▸ sane_run C st0 before (sane_start st0 h0)
  obtain ⟨h1, h2, h3, h4, _⟩ := construct_new C hname st k vec om lum vm s hS hl ho hv hne
  have hQ := objs_step C hname _ st.count after (narrowKeep st.next vm) h3 h1 (by
    rw [h4]
    intro r hr
    simp only [newObj, hnarrow, Spec.refs, List.mem_cons, List.not_mem_nil, or_false, Bool.false_eq_true, false_and,
      if_false] at hr
    unfold narrowKeep
    omega) hafter
  obtain ⟨h5, h6, h7⟩ := quiet_run C hname _ st.count after h3 hQ h1
  obtain ⟨v, hv1, hv2⟩ := means_read C hname _ st.count m h5
  refine ⟨v, ?_, ?_⟩
  · exact (congrArg Prod.snd (step_read C _ _ m h7.1)).trans hv1
  · intro w
    rw [← h2, ← h6]
    exact ⟨fun hw => means_unique C hname _ _ m w v hw hv2, fun e => e ▸ hv2⟩

/-- C173 for 360 degree views: the luminances and solid angles of the caller have to be left alone as well. -/
theorem C173_snapshot_full_partial (C : Code Cont S Slot Val) (hname : ∀ k m, C.name (C.slot k m) = m)
    (st0 : St Cont S Slot Val) (h0 : Spec.Start st0) (before after : List (Op Cont S)) (k : Kind) (vec om lum vm : Nat)
    (s : S) (st : St Cont S Slot Val) (hst : st = run C st0 before)
    (hl : lum < st.next) (ho : om < st.next) (hv : vm < st.next) (hne : vm ≠ om)
    (hafter : ∀ op ∈ after, Spec.Apart st.count (fullKeep st.next vm lum om) op) (m : Name) :
    ∃ v, (step C (run C (step C st (.make k vec om lum vm s)).1 after) (.read st.count m)).2 = some v ∧
      ∀ w, Spec.Means C (Spec.snapshot C (argsOf st k vec om lum vm s)) m w ↔ w = v := by
  have hS : Sane st := hst ▸ sane_run C st0 before (sane_start st0 h0)
  obtain ⟨h1, h2, h3, h4, _⟩ := construct_new C hname st k vec om lum vm s hS hl ho hv hne
  have hQ := objs_step C hname _ st.count after (fullKeep st.next vm lum om) h3 h1 (by
    rw [h4]
    intro r hr
    simp only [newObj, Spec.refs, List.mem_cons, List.not_mem_nil, or_false] at hr
    unfold fullKeep
    rcases hr with rfl | rfl | rfl | rfl | rfl
    · omega
    · split <;> omega
    · split <;> omega
    · split <;> omega
    · omega) hafter
  obtain ⟨h5, h6, h7⟩ := quiet_run C hname _ st.count after h3 hQ h1
  obtain ⟨v, hv1, hv2⟩ := means_read C hname _ st.count m h5
  refine ⟨v, ?_, ?_⟩
  · exact (congrArg Prod.snd (step_read C _ _ m h7.1)).trans hv1
  · intro w
    rw [← h2, ← h6]
    exact ⟨fun hw => means_unique C hname _ _ m w v hw hv2, fun e => e ▸ hv2⟩

/-! ## C174 -/

/-- C174, exactly when assignments have taken effect. In any state, all metrics read of a metric set are those of what
it sees now if and only if everything remembered about it still is. -/
theorem C174_exact_partial (C : Code Cont S Slot Val) (hname : ∀ k m, C.name (C.slot k m) = m) (st : St Cont S Slot Val)
    (o : Nat) (ho : o < st.count) :
    (∀ m, ∃ v, (step C st (.read o m)).2 = some v ∧ Spec.Means C (dataOf st o) m v) ↔ Spec.Fresh C st o := by
  simp only [step_read C st o _ ho]
  constructor
  · intro h s v hs m hm
    obtain ⟨w, hw, hM⟩ := h m
    have : readC (classes C st) o 9 m st.caches = some (v, st.caches) :=
      readC_hit (classes C st) o 8 m st.caches v (by rw [← hs, ← hm]; rfl)
    simp only [read, this, Option.some.injEq] at hw
    exact hw ▸ hM
  · exact fun h m => means_read C hname st o m h

/-- No metric of `o` is read by this step. -/
def Unread (o : Nat) : Op Cont S → Prop
  | .read o' _ => o' ≠ o
  | _ => True

theorem noentry_read (C : Code Cont S Slot Val) (st : St Cont S Slot Val) (o o' : Nat) (m : Name) (ho : o' ≠ o)
    (h : ∀ s v, st.caches s ≠ some (o, v)) : ∀ s v, (read C st o' m).1.caches s ≠ some (o, v) := by
  unfold read
  split
  · rename_i w c hc
    intro s v hs
    exact h s v (readC_others _ _ _ _ _ _ _ hc s o v (Ne.symm ho) hs)
  · exact h

theorem noentry_step (C : Code Cont S Slot Val) (st : St Cont S Slot Val) (o : Nat) (op : Op Cont S) (ho : o < st.count)
    (h : ∀ s v, st.caches s ≠ some (o, v)) (hu : Unread o op) :
    (∀ s v, (step C st op).1.caches s ≠ some (o, v)) ∧ o < (step C st op).1.count := by
  cases op with
  | new c => exact ⟨h, ho⟩
  | write r c => exact ⟨h, ho⟩
  | assign o s => exact ⟨h, ho⟩
  | read o' m =>
    simp only [step]
    split
    · exact ⟨noentry_read C st o o' m hu h, by rw [(read_fst C st o' m).2.2.2]; exact ho⟩
    · exact ⟨h, ho⟩
  | make k vec om lum vm s =>
    simp only [step, construct]
    split
    · exact ⟨noentry_read C _ o st.count _ (by omega) h,
        by rw [(read_fst C _ _ _).2.2.2]; exact Nat.lt_succ_of_lt ho⟩
    · exact ⟨h, Nat.lt_succ_of_lt ho⟩

theorem noentry_run (C : Code Cont S Slot Val) (st : St Cont S Slot Val) (o : Nat) (ops : List (Op Cont S))
    (ho : o < st.count) (h : ∀ s v, st.caches s ≠ some (o, v)) (hu : ∀ op ∈ ops, Unread o op) :
    (∀ s v, (run C st ops).caches s ≠ some (o, v)) ∧ o < (run C st ops).count := by
  induction ops generalizing st with
  | nil => exact ⟨h, ho⟩
  | cons op ops ih =>
    obtain ⟨h1, h2⟩ := noentry_step C st o op ho h (hu op (by simp))
    exact ih _ h2 h1 fun op hop => hu op (by simp [hop])

/-- C174 before the first read. A metric set whose solid angles were not corrected, and of which no metric has been
read yet, follows everything: after any assignments to its attributes, to its mapper and to the arrays it shares with the
caller, every metric is the one for what it sees now - and so are the metrics read after that, until the next change. -/
theorem C174_unread_partial (C : Code Cont S Slot Val) (hname : ∀ k m, C.name (C.slot k m) = m)
    (st0 : St Cont S Slot Val) (h0 : Spec.Start st0) (before between after : List (Op Cont S)) (k : Kind)
    (vec om lum vm : Nat) (s : S) (st st' : St Cont S Slot Val) (hst : st = run C st0 before)
    (hc : C.corrects (argsOf st k vec om lum vm s) = false) (hb : ∀ op ∈ between, Unread st.count op)
    (hst' : st' = run C (step C st (.make k vec om lum vm s)).1 between) (he : Spec.Exists st' st.count)
    (hq : Spec.QuietAll C st' st.count after) (m : Name) :
    ∃ v, (step C (run C st' after) (.read st.count m)).2 = some v ∧
      ∀ w, Spec.Means C (dataOf st' st.count) m w ↔ w = v := by
  have hS : Sane st := hst ▸ sane_run C st0 before (sane_start st0 h0)
  have hn : ∀ s' v, (step C st (.make k vec om lum vm s)).1.caches s' ≠ some (st.count, v) := by
    intro s' v hs
    simp only [step, construct, hc, Bool.false_eq_true, if_false] at hs
    exact absurd (hS s' st.count v hs) (Nat.lt_irrefl _)
  have hcount : st.count < (step C st (.make k vec om lum vm s)).1.count := by
    simp only [step, construct, hc, Bool.false_eq_true, if_false]
    exact Nat.lt_succ_self _
  obtain ⟨h1, _⟩ := noentry_run C _ st.count between hcount hn hb
  have hF : Spec.Fresh C st' st.count := by
    intro s' v hs
    rw [hst'] at hs
    exact absurd hs (h1 s' v)
  obtain ⟨h5, h6, h7⟩ := quiet_run C hname st' st.count after he hq hF
  obtain ⟨v, hv1, hv2⟩ := means_read C hname _ st.count m h5
  refine ⟨v, ?_, ?_⟩
  · exact (congrArg Prod.snd (step_read C _ _ m h7.1)).trans hv1
  · intro w
    rw [← h6]
    exact ⟨fun hw => means_unique C hname _ _ m w v hw hv2, fun e => e ▸ hv2⟩

/-- A step that neither reads a metric nor makes a metric set. -/
def Plain : Op Cont S → Prop
  | .read _ _ => False
  | .make .. => False
  | _ => True

theorem plain_run (C : Code Cont S Slot Val) (st : St Cont S Slot Val) (ops : List (Op Cont S))
    (h : ∀ op ∈ ops, Plain op) : (run C st ops).caches = st.caches ∧ (run C st ops).count = st.count ∧
      ∀ o, ((run C st ops).objs o).cls = (st.objs o).cls := by
  induction ops generalizing st with
  | nil => exact ⟨rfl, rfl, fun _ => rfl⟩
  | cons op ops ih =>
    obtain ⟨h1, h2, h3⟩ := ih (step C st op).1 fun op hop => h op (by simp [hop])
    have h4 := h op (by simp)
    cases op with
    | new c => exact ⟨h1, h2, h3⟩
    | write r c => exact ⟨h1, h2, h3⟩
    | assign o s =>
      refine ⟨h1, h2, fun o' => (h3 o').trans ?_⟩
      simp only [step]
      by_cases ho : o' = o
      · subst ho; simp
      · rw [Function.update_of_ne ho]
    | read o m => exact h4.elim
    | make k vec om lum vm s => exact h4.elim

/-- C174, why the first read is not enough when solid angles are corrected: the constructor itself reads the angles of
the rays. Whatever is assigned to the set, to its mapper or to any array afterwards, the angles are those from the time
it was made - also when this is the first metric the caller reads. -/
theorem C174_corrected (C : Code Cont S Slot Val) (hname : ∀ k m, C.name (C.slot k m) = m)
    (st0 : St Cont S Slot Val) (h0 : Spec.Start st0) (before between : List (Op Cont S)) (k : Kind)
    (vec om lum vm : Nat) (s : S) (st : St Cont S Slot Val) (hst : st = run C st0 before)
    (hl : lum < st.next) (ho : om < st.next) (hv : vm < st.next) (hne : vm ≠ om)
    (hc : C.corrects (argsOf st k vec om lum vm s) = true) (hb : ∀ op ∈ between, Plain op) :
    ∃ v, (step C (run C (step C st (.make k vec om lum vm s)).1 between) (.read st.count .radians)).2 = some v ∧
      Spec.Means C (Spec.snapshot C (argsOf st k vec om lum vm s)) .radians v := by
  have hS : Sane st := hst ▸ sane_run C st0 before (sane_start st0 h0)
  have h2 := placed_data C st k vec om lum vm s hl ho hv hne
  obtain ⟨v, c, hvc⟩ := read_some C hname (placed C st k vec om lum vm s) st.count .radians
  have hM := (readC_right _ _ _ _ _ _ _ ((right_iff C hname _ st.count).2
    (placed_fresh C st k vec om lum vm s hS)) hvc).1
  rw [isValue_iff C hname, h2] at hM
  have hcon : (step C st (.make k vec om lum vm s)).1 = { placed C st k vec om lum vm s with caches := c } := by
    simp [step, construct, hc, read, hvc]
  have hslot := readC_stored _ _ _ _ _ _ _ hvc
  obtain ⟨e1, e2, e3⟩ := plain_run C (step C st (.make k vec om lum vm s)).1 between hb
  refine ⟨v, ?_, hM⟩
  rw [step_read C _ _ _ (by rw [e2, hcon]; exact Nat.lt_succ_self _)]
  have hhit := readC_hit (classes C (run C (step C st (.make k vec om lum vm s)).1 between)) st.count 8 .radians
    (run C (step C st (.make k vec om lum vm s)).1 between).caches v (by
      have hcc : (step C st (.make k vec om lum vm s)).1.caches = c := by rw [hcon]
      rw [e1, hcc]
      have hs : (classes C (run C (step C st (.make k vec om lum vm s)).1 between)).slot st.count .radians =
          (classes C (placed C st k vec om lum vm s)).slot st.count .radians := by
        change C.slot _ _ = C.slot _ _
        rw [e3 st.count, hcon]
      exact (congrArg c hs).trans hslot)
  simp only [read]
  rw [hhit]

/-! ## A concrete program: some metrics of the code, for rays with rational coordinates -/

/-- The cosines, the illuminance and the average luminance (basemetricset.py 207-247); arrays and mappers are lists of
triples: rays, luminances and solid angles in the first coordinate, a mapper its direction and a flag for 360 degrees.
Simplified: cosines are not clipped to [-1, 1], and the area is the sum of the solid angles now (the histories below never
change solid angles). -/
def toyFormula (m : Name) (d : Data (List (ℚ × ℚ × ℚ)) ℚ) (l : List (List ℚ)) : List ℚ :=
  match m with
  | .ctheta => d.vec.map fun v => d.vm.head?.elim 0 fun x => v.1 * x.1 + v.2.1 * x.2.1 + v.2.2 * x.2.2
  | .illum => [(((l.headD []).zip (d.lum.zip d.om)).map fun t => t.1 * t.2.1.1 * t.2.2.1).sum * d.set]
  | .avglum => [((d.lum.zip d.om).map fun t => t.1.1 * t.2.1).sum * d.set / (d.om.map fun t => t.1).sum]
  | _ => []

/-- All rays in view, no correction. -/
def toy : Code (List (ℚ × ℚ × ℚ)) ℚ Name (List ℚ) where
  slot _ m := m
  name m := m
  formula := toyFormula
  full vm := vm.length == 2
  corrects _ := false
  keepVec i := i.vec
  keepLum i := i.lum
  keepOm i := i.om
  keepRgb i := i.lum
  clipOm i := i.om
  settle i := i.set

/-- Nothing in memory. -/
def toy0 : St (List (ℚ × ℚ × ℚ)) ℚ Name (List ℚ) := ⟨fun _ => [], 0, fun _ => ⟨.base, 0, 0, 0, 0, 0, 0⟩, 0, fun _ => none⟩

/-- Two rays, their luminances and solid angles, and a mapper that looks along the first ray. -/
def toyArrays (vm : List (ℚ × ℚ × ℚ)) : List (Op (List (ℚ × ℚ × ℚ)) ℚ) :=
  [.new [(0, 1, 0), (3/5, 4/5, 0)], .new [(1/10, 0, 0), (1/5, 0, 0)], .new [(100, 0, 0), (50, 0, 0)], .new vm]

/-- C173 as a user would have it: later changes to the caller's arrays and mapper do not matter. -/
def C173_statement : Prop :=
  ∀ (Cont S Slot Val : Type) [DecidableEq Slot] (C : Code Cont S Slot Val), (∀ k m, C.name (C.slot k m) = m) →
    ∀ (st0 : St Cont S Slot Val), Spec.Start st0 → ∀ (before after : List (Op Cont S)) (k : Kind) (vec om lum vm : Nat)
      (s : S) (st : St Cont S Slot Val), st = run C st0 before → vec < st.next → lum < st.next → om < st.next →
      vm < st.next → vm ≠ om →
      (∀ op ∈ after, Spec.Apart st.count (fun r => st.next ≤ r ∧ r < st.next + 4) op) → ∀ m v,
      (step C (run C (step C st (.make k vec om lum vm s)).1 after) (.read st.count m)).2 = some v →
      Spec.Means C (Spec.snapshot C (argsOf st k vec om lum vm s)) m v

theorem means_of {C : Code Cont S Slot Val} (hname : ∀ k m, C.name (C.slot k m) = m) (d : Data Cont S) (m : Name)
    (v w : Val) (n : Nat) (h : Spec.metric C d n m = some w) (hv : Spec.Means C d m v) : v = w := by
  let st : St Cont S Slot Val := ⟨fun r => match r with | 0 => d.vec | 1 => d.lum | 2 => d.om | 3 => d.rgb | _ => d.vm, 5,
    fun _ => ⟨d.cls, 0, 1, 2, 3, 4, d.set⟩, 1, fun _ => none⟩
  exact means_unique C hname st 0 m v w hv ⟨n, h⟩

/-- C173 fails for every view: a metric set keeps the caller's mapper. A mapper is turned round after the set was
made; the illuminance of the set should be 18 and is -18. -/
theorem C173_refuted : ¬ C173_statement := by
  intro h
  have := h _ _ _ _ toy (fun _ _ => rfl) toy0 ⟨rfl, fun _ => rfl⟩ (toyArrays [(0, 1, 0)]) [.write 3 [(0, -1, 0)]]
    .metric 0 1 2 3 1 _ rfl (by decide) (by decide) (by decide) (by decide) (by decide)
    (by intro op hop; simp only [List.mem_singleton] at hop; subst hop; simp only [Spec.Apart]; decide) .illum [-18]
    (by decide +kernel)
  have e := means_of (C := toy) (fun _ _ => rfl) _ _ _ [18] 3 (by decide +kernel) this
  exact absurd e (by decide +kernel)

/-- A 360 degree view keeps the caller's arrays as well. Illuminance is read, the array of luminances is then overwritten
with zeros by the caller, and average luminance is read: 18 lux come from luminance 0. -/
theorem C173_mixed :
    (step toy (run toy toy0 (toyArrays [(0, 1, 0), (0, 0, 0)] ++
      [.make .metric 0 1 2 3 1, .read 0 .illum, .write 2 [(0, 0, 0), (0, 0, 0)]])) (.read 0 .illum)).2 = some [18] ∧
    (step toy (run toy toy0 (toyArrays [(0, 1, 0), (0, 0, 0)] ++
      [.make .metric 0 1 2 3 1, .read 0 .illum, .write 2 [(0, 0, 0), (0, 0, 0)]])) (.read 0 .avglum)).2 = some [0] := by
  constructor <;> decide +kernel

-- for a narrower view the same history gives the metrics of the original luminances
example : (step toy (run toy toy0 (toyArrays [(0, 1, 0)] ++
      [.make .metric 0 1 2 3 1, .read 0 .illum, .write 2 [(0, 0, 0), (0, 0, 0)]])) (.read 0 .avglum)).2 =
    some [200/3] := by decide +kernel

-- the hypotheses of C173_snapshot_partial are met by such a history
example : ∀ op ∈ ([.read 0 .illum, .write 2 [(0, 0, 0)], .make .base 0 1 2 3 1, .read 1 .illum] :
    List (Op (List (ℚ × ℚ × ℚ)) ℚ)), Spec.Apart 0 (narrowKeep 4 3) op := by
  intro op hop
  simp only [List.mem_cons, List.not_mem_nil, or_false] at hop
  rcases hop with rfl | rfl | rfl | rfl <;> simp only [Spec.Apart, narrowKeep] <;> omega

/-- C174 as a user would have it: a metric is the one for the current attributes. -/
def C174_statement : Prop :=
  ∀ (Cont S Slot Val : Type) [DecidableEq Slot] (C : Code Cont S Slot Val), (∀ k m, C.name (C.slot k m) = m) →
    ∀ (st0 : St Cont S Slot Val), Spec.Start st0 → ∀ (ops : List (Op Cont S)) (o : Nat) (m : Name) (v : Val),
      (step C (run C st0 ops) (.read o m)).2 = some v → Spec.Means C (dataOf (run C st0 ops) o) m v

/-- C174 fails: `scale` is set to 179 after the illuminance was read at scale 1; it still is 18. -/
theorem C174_refuted : ¬ C174_statement := by
  intro h
  have := h _ _ _ _ toy (fun _ _ => rfl) toy0 ⟨rfl, fun _ => rfl⟩ (toyArrays [(0, 1, 0)] ++
    [.make .metric 0 1 2 3 1, .read 0 .illum, .assign 0 179]) 0 .illum [18] (by decide +kernel)
  have e := means_of (C := toy) (fun _ _ => rfl) _ _ _ [179 * 18] 3 (by decide +kernel) this
  exact absurd e (by decide +kernel)

/-- A remembered metric comes back when another set has been read in between: the same two assignments, but reading the
illuminance of a second set (which takes the single place in the cache) makes the new scale visible. -/
theorem C174_evicted :
    (step toy (run toy toy0 (toyArrays [(0, 1, 0)] ++ [.make .metric 0 1 2 3 1, .make .metric 0 1 2 3 1,
      .read 0 .illum, .assign 0 179, .read 1 .illum])) (.read 0 .illum)).2 = some [179 * 18] := by decide +kernel

-- the hypotheses of C174_unread_partial: an assignment between construction and the first read
example : ∀ op ∈ ([.assign 0 179, .write 3 [(0, -1, 0)]] : List (Op (List (ℚ × ℚ × ℚ)) ℚ)), Unread 0 op := by
  intro op hop
  simp only [List.mem_cons, List.not_mem_nil, or_false] at hop
  rcases hop with rfl | rfl <;> trivial

end Verif.Live
