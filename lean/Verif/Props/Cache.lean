import Mathlib.Data.List.Forall2
import Mathlib.Data.List.Induction
import Verif.Lemmas.Cache
/-! # C04, C05: metric caches and the frame size cache -/
namespace Verif.Cache
variable {Obj Metric Slot Val : Type} [DecidableEq Obj] [DecidableEq Slot]

theorem readAll_sound (C : Classes Obj Metric Slot Val) (fuel : Nat) (h : List (Obj × Metric)) (c : Caches Obj Slot Val)
    (hI : CInv C c) (vs : List Val) (hr : readAll C fuel h c = some vs) :
    List.Forall₂ (fun om v => Spec.IsValue C om.1 om.2 v) h vs := by
  induction h generalizing c vs with
  | nil => simp [readAll] at hr; subst hr; exact List.Forall₂.nil
  | cons om rest ih =>
    obtain ⟨o, m⟩ := om
    simp only [readAll] at hr
    split at hr
    · simp at hr
    · rename_i v c' hv
      simp only [Option.map_eq_some_iff] at hr
      obtain ⟨vs', hvs', rfl⟩ := hr
      obtain ⟨h1, h2⟩ := readC_sound C o fuel m c c' v hI hv
      exact List.Forall₂.cons h1 (ih c' h2 vs' hvs')

/-- C04. For any classes with acyclic metrics, any number of objects, and any history of reads starting with empty
caches, every read returns a value, namely the one the metric's formula gives for that object when evaluated without any
cache; that value is unique. -/
theorem C04_reads_independent_of_history (C : Classes Obj Metric Slot Val) (rank : Metric → Nat) (hC : Spec.Acyclic C rank)
    (h : List (Obj × Metric)) (fuel : Nat) (hf : ∀ om ∈ h, rank om.2 < fuel) :
    ∃ vs, readAll C fuel h (fun _ => none) = some vs ∧
      List.Forall₂ (fun om v => ∀ w, Spec.IsValue C om.1 om.2 w ↔ w = v) h vs := by
  have tot : ∀ (h : List (Obj × Metric)) (c : Caches Obj Slot Val), (∀ om ∈ h, rank om.2 < fuel) →
      (readAll C fuel h c).isSome := by
    intro h
    induction h with
    | nil => intro c _; simp [readAll]
    | cons om rest ih =>
      intro c hf
      obtain ⟨o, m⟩ := om
      have h1 := readC_total C rank hC o fuel m c (hf (o, m) (by simp))
      obtain ⟨⟨v, c'⟩, hv⟩ := Option.isSome_iff_exists.1 h1
      have h2 := ih c' (fun om hom => hf om (by simp [hom]))
      simp [readAll, hv, h2]
  obtain ⟨vs, hvs⟩ := Option.isSome_iff_exists.1 (tot h (fun _ => none) hf)
  refine ⟨vs, hvs, ?_⟩
  refine List.Forall₂.imp ?_ (readAll_sound C fuel h _ (fun s o v hs => by simp at hs) vs hvs)
  intro om v hv w
  exact ⟨fun hw => Spec.isValue_unique C _ _ w v hw hv, fun e => e ▸ hv⟩

/-! ## The metrics of the package -/

/-- A rank that decreases along `deps`. -/
def rank : Name → Nat
  | .radians | .pweight | .illum | .gcr | .tasklum | .irradiance => 1
  | .pweighted_area | .loggcr | .threshold | .dgp_t1 => 2
  | .pwavglum | .src_mask => 3
  | .pwgcr | .sources | .background | .source_pos_idx => 4
  | .logpwgcr | .pwsl2 | .srcillum | .srcarea | .backlum_true => 5
  | .backlum | .log_gc => 6
  | .ugr | .dgp_t2 => 7
  | .ugp | .dgp => 8
  | _ => 0

/-- Read the listed metrics in order, then compute. -/
def bodyOf {Val : Type} (compute : List Val → Val) : List Name → List Val → Prog Name Val
  | [], acc => .ret (compute acc)
  | m :: ms, acc => .read m (fun v => bodyOf compute ms (acc ++ [v]))

theorem readsOnly_bodyOf {Val : Type} (p : Name → Prop) (compute : List Val → Val) (ms : List Name) (acc : List Val)
    (h : ∀ m ∈ ms, p m) : Spec.ReadsOnly p (bodyOf compute ms acc) := by
  induction ms generalizing acc with
  | nil => exact trivial
  | cons m ms ih => exact ⟨h m (by simp), fun v => ih _ (fun m' hm' => h m' (by simp [hm']))⟩

/-- C04 for the metric sets of the package: objects of any mixture of the three classes (`cls` picks the function a name
resolves to), formulas `compute` arbitrary functions of the object and the metrics it reads; the dependency graph is the
one of the code. Every history of reads gives the uncached values. -/
theorem C04_metric_sets (cls : Obj → Name → Slot) (compute : Slot → Obj → List Val → Val) (name : Slot → Name)
    (hname : ∀ o m, name (cls o m) = m) (h : List (Obj × Name)) :
    ∃ vs, readAll ⟨cls, fun s o => bodyOf (compute s o) (deps (name s)) []⟩ 9 h (fun _ => none) = some vs ∧
      List.Forall₂ (fun om v => ∀ w,
        Spec.IsValue ⟨cls, fun s o => bodyOf (compute s o) (deps (name s)) []⟩ om.1 om.2 w ↔ w = v) h vs := by
  refine C04_reads_independent_of_history _ rank ?_ h 9 ?_
  · intro o m
    apply readsOnly_bodyOf
    simp only [hname]
    cases m <;> decide
  · rintro ⟨o, m⟩ -
    change rank m < 9
    cases m <;> decide

-- two objects (0 and 1) read alternately; formulas give object-dependent numbers
example : readAll (Obj := Nat) (Slot := Name) (Val := Nat)
    ⟨fun _ m => m, fun s o => bodyOf (fun l => o + 10 * l.sum + 1) (deps s) []⟩ 9
    [(0, .dgp_t1), (1, .dgp_t1), (0, .illum), (0, .dgp_t1), (1, .radians)] (fun _ => none)
    = some [111, 222, 11, 111, 22] := by decide

/-! ## framesize -/
variable {A : Type}

/-- Specification: aspect of mapper `o` after a list of operations. -/
def Spec.aspectAfter (init : Obj → A) (ops : List (FOp Obj A)) (o : Obj) : A :=
  ops.foldl (fun a op => match op with
    | .setAspect o' a' => if o' = o then a' else a
    | .framesize _ _ => a) (init o)

/-- Specification of a single result: `(res, round(res/aspect))`, or `(round(res*aspect), res)` when `aspect < 1`. -/
def Spec.frame (lt1 : A → Bool) (rm rd : Nat → A → Nat) (a : A) (res : Nat) : Nat × Nat :=
  (if lt1 a then rm res a else res, if lt1 a then res else rd res a)

theorem frameBody_eq (lt1 : A → Bool) (rm rd : Nat → A → Nat) (a : A) (res : Nat) :
    frameBody lt1 rm rd a res = Spec.frame lt1 rm rd a res := by
  unfold frameBody Spec.frame; cases lt1 a <;> rfl

theorem frun_fixed (lt1 : A → Bool) (rm rd : Nat → A → Nat) (asp : Obj → A) (qs : List (Obj × Nat))
    (cache : Option ((Obj × Nat) × (Nat × Nat)))
    (hc : ∀ k v, cache = some (k, v) → v = frameBody lt1 rm rd (asp k.1) k.2) :
    frun lt1 rm rd ⟨asp, cache⟩ (qs.map fun q => .framesize q.1 q.2) =
      qs.map fun q => some (frameBody lt1 rm rd (asp q.1) q.2) := by
  induction qs generalizing cache with
  | nil => rfl
  | cons q qs ih =>
    simp only [List.map_cons, frun, fstep]
    cases cache with
    | none => simp only; rw [ih]; intro k v h; simp at h; obtain ⟨rfl, rfl⟩ := h; rfl
    | some kv =>
      obtain ⟨k, v⟩ := kv
      simp only
      split
      · rename_i hk
        simp only
        rw [ih _ hc]
        have := hc k v rfl
        subst hk
        rw [this]
      · simp only
        rw [ih]
        intro k v h; simp at h; obtain ⟨rfl, rfl⟩ := h; rfl

/-- C05 (partial: the aspects are assigned before the first request). After any assignments to any mappers, every frame
size asked for afterwards, in any order and for any mappers, is the one of the mapper's aspect. Missing: assignments
between requests, for which the claim is false (`C05_stale_after_assignment`). -/
theorem C05_framesize_partial (lt1 : A → Bool) (rm rd : Nat → A → Nat) (init : Obj → A)
    (ops : List (FOp Obj A)) (hops : ∀ op ∈ ops, ∃ o a, op = .setAspect o a) (qs : List (Obj × Nat)) :
    frun lt1 rm rd ⟨init, none⟩ (ops ++ qs.map fun q => .framesize q.1 q.2) =
      ops.map (fun _ => none) ++ qs.map fun q => some (Spec.frame lt1 rm rd (Spec.aspectAfter init ops q.1) q.2) := by
  induction ops generalizing init with
  | nil =>
    simp only [List.nil_append, List.map_nil]
    rw [frun_fixed _ _ _ _ _ _ (by simp)]
    simp [frameBody_eq, Spec.aspectAfter]
  | cons op ops ih =>
    obtain ⟨o, a, rfl⟩ := hops op (by simp)
    simp only [List.cons_append, frun, fstep, List.map_cons]
    rw [ih _ (fun op hop => hops op (by simp [hop]))]
    congr 2
    apply List.map_congr_left
    intro q _
    have : Spec.aspectAfter (Function.update init o a) ops q.1 = Spec.aspectAfter init (.setAspect o a :: ops) q.1 := by
      simp only [Spec.aspectAfter, List.foldl_cons]
      by_cases h : o = q.1
      · subst h; simp
      · have h' : q.1 ≠ o := fun e => h e.symm
        simp [h, Function.update_of_ne h']
    rw [this]

/-- Specification: the most recent frame size request of a history. -/
def Spec.lastRequest (ops : List (FOp Obj A)) : Option (Obj × Nat) :=
  ops.reverse.findSome? fun op => match op with
    | .framesize o r => some (o, r)
    | .setAspect _ _ => none

/-- State after a history. -/
def fend (lt1 : A → Bool) (rm rd : Nat → A → Nat) (st : FSt Obj A) (ops : List (FOp Obj A)) : FSt Obj A :=
  ops.foldl (fun st op => (fstep lt1 rm rd st op).1) st

theorem frun_append (lt1 : A → Bool) (rm rd : Nat → A → Nat) (st : FSt Obj A) (ops : List (FOp Obj A)) (op : FOp Obj A) :
    (frun lt1 rm rd st (ops ++ [op])).getLast? = some (fstep lt1 rm rd (fend lt1 rm rd st ops) op).2 := by
  induction ops generalizing st with
  | nil => simp [frun, fend]
  | cons o ops ih =>
    have hne : frun lt1 rm rd (fstep lt1 rm rd st o).1 (ops ++ [op]) ≠ [] := by
      cases ops <;> simp [frun]
    simp only [List.cons_append, frun]
    rw [List.getLast?_cons_of_ne_nil hne, ih]
    simp [fend]

theorem fend_aspect (lt1 : A → Bool) (rm rd : Nat → A → Nat) (st : FSt Obj A) (ops : List (FOp Obj A)) (o : Obj) :
    (fend lt1 rm rd st ops).aspect o = Spec.aspectAfter st.aspect ops o := by
  induction ops using List.reverseRecOn with
  | nil => rfl
  | append_singleton ops op ih =>
    simp only [fend, Spec.aspectAfter, List.foldl_append, List.foldl_cons, List.foldl_nil] at ih ⊢
    rw [← ih]
    cases op with
    | setAspect o' a' =>
      simp only [fstep]
      by_cases h : o' = o
      · subst h; simp
      · have h' : o ≠ o' := fun e => h e.symm
        simp [h, Function.update_of_ne h']
    | framesize o' r =>
      simp only [fstep]
      split
      · split <;> rfl
      · rfl

theorem fend_cache (lt1 : A → Bool) (rm rd : Nat → A → Nat) (init : Obj → A) (ops : List (FOp Obj A)) :
    (fend lt1 rm rd ⟨init, none⟩ ops).cache.map Prod.fst = Spec.lastRequest ops := by
  induction ops using List.reverseRecOn with
  | nil => rfl
  | append_singleton ops op ih =>
    simp only [fend, Spec.lastRequest, List.foldl_append, List.foldl_cons, List.foldl_nil, List.reverse_append,
      List.reverse_singleton, List.singleton_append, List.findSome?_cons] at ih ⊢
    cases op with
    | setAspect o' a' => simpa [fstep] using ih
    | framesize o' r =>
      simp only [fstep]
      split
      · rename_i k v hc
        split
        · rename_i hk; simp [hc, hk]
        · simp
      · simp

/-- C05 (partial: any history whose previous request was for another mapper or resolution). For every history of
assignments and requests, a request is answered from the mapper's current aspect provided the previous request (if any)
was not for the same mapper and resolution. Missing: a repeated request after an assignment, for which the claim is false
(`C05_stale_after_assignment`). -/
theorem C05_fresh_request_partial (lt1 : A → Bool) (rm rd : Nat → A → Nat) (init : Obj → A) (ops : List (FOp Obj A))
    (o : Obj) (res : Nat) (h : Spec.lastRequest ops ≠ some (o, res)) :
    (frun lt1 rm rd ⟨init, none⟩ (ops ++ [.framesize o res])).getLast? =
      some (some (Spec.frame lt1 rm rd (Spec.aspectAfter init ops o) res)) := by
  rw [frun_append]
  have h1 := fend_aspect lt1 rm rd ⟨init, none⟩ ops o
  have h2 := fend_cache lt1 rm rd init ops
  simp only [fstep]
  split
  · rename_i k v hc
    have : k ≠ (o, res) := by rintro rfl; rw [hc] at h2; exact h h2.symm
    simp [this, frameBody_eq, h1]
  · simp [frameBody_eq, h1]

/-- C05 (negation). The full claim is false of the code: ask, assign a new aspect, ask again — the second answer is the
old one. Witness: aspect 1 then 2 at resolution 10 gives (10, 10) where (10, 5) is the current frame. -/
theorem C05_stale_after_assignment :
    ∃ (ops : List (FOp Nat Nat)) (q : Nat × Nat),
      (frun (fun a => decide (a < 1)) (fun r a => r * a) (fun r a => r / a) ⟨fun _ => 1, none⟩
        (ops ++ [.framesize q.1 q.2])).getLast? ≠
      some (some (Spec.frame (fun a => decide (a < 1)) (fun r a => r * a) (fun r a => r / a)
        (Spec.aspectAfter (fun _ => 1) ops q.1) q.2)) :=
  ⟨[.framesize 0 10, .setAspect 0 2], (0, 10), by decide⟩

/-- **C05**, the full claim: after any history a request is answered from the mapper's current aspect. -/
def C05_statement : Prop :=
  ∀ (Obj A : Type) (_ : DecidableEq Obj) (lt1 : A → Bool) (rm rd : Nat → A → Nat) (init : Obj → A) (ops : List (FOp Obj A))
    (o : Obj) (res : Nat), (frun lt1 rm rd ⟨init, none⟩ (ops ++ [.framesize o res])).getLast? =
      some (some (Spec.frame lt1 rm rd (Spec.aspectAfter init ops o) res))

theorem C05_refuted : ¬ C05_statement := by
  intro h
  obtain ⟨ops, q, hq⟩ := C05_stale_after_assignment
  exact hq (h Nat Nat inferInstance _ _ _ _ ops q.1 q.2)

example : frun (Obj := Nat) (A := Nat) (fun a => decide (a < 1)) (fun r a => r * a) (fun r a => r / a) ⟨fun _ => 1, none⟩
    [.setAspect 0 2, .framesize 0 10, .framesize 1 10, .framesize 0 10] =
    [none, some (10, 5), some (10, 10), some (10, 5)] := by decide

end Verif.Cache
