import Verif.Props.Stray

/-! C172: cutting a ray into coincident rays that share its solid angle. -/

namespace Verif.Metric
open Verif.Geo Verif.Map Verif.Pos Real

/-- `ps` are parts of `r`: its direction and luminance, its solid angle together -/
def Spec.Parts (r : Ray) (ps : List Ray) : Prop :=
  ps ≠ [] ∧ (∀ q ∈ ps, q.v = r.v ∧ q.lum = r.lum) ∧ (ps.map Ray.om).sum = r.om

/-- every ray of a list cut into parts -/
inductive Spec.Cut : List Ray → List Ray → Prop
  | nil : Spec.Cut [] []
  | cons {r ps l l'} : Spec.Parts r ps → Spec.Cut l l' → Spec.Cut (r :: l) (ps ++ l')

open Spec (Parts Cut)

theorem Parts.filter {r : Ray} {ps : List Ray} (h : Parts r ps) {p : Ray → Bool}
    (hp : ∀ a b : Ray, a.v = b.v → a.lum = b.lum → p a = p b) : ps.filter p = if p r then ps else [] := by
  split_ifs with hr
  · rw [List.filter_eq_self]
    intro q hq
    obtain ⟨h1, h2⟩ := h.2.1 q hq
    rw [hp q r h1 h2, hr]
  · rw [List.filter_eq_nil_iff]
    intro q hq
    obtain ⟨h1, h2⟩ := h.2.1 q hq
    rw [hp q r h1 h2]; exact hr

theorem Cut.filter {l l' : List Ray} (h : Cut l l') {p : Ray → Bool}
    (hp : ∀ a b : Ray, a.v = b.v → a.lum = b.lum → p a = p b) : Cut (l.filter p) (l'.filter p) := by
  induction h with
  | nil => exact .nil
  | cons hps _ ih =>
    rw [List.filter_append, Parts.filter hps hp, List.filter_cons]
    split_ifs
    · exact .cons hps ih
    · exact ih

theorem Cut.norm {l l' : List Ray} (h : Cut l l') : Cut (l.map normR) (l'.map normR) := by
  induction h with
  | nil => exact .nil
  | @cons r ps l l' hps _ ih =>
    rw [List.map_append, List.map_cons]
    refine .cons ⟨by simpa using hps.1, ?_, ?_⟩ ih
    · intro q hq
      obtain ⟨a, ha, rfl⟩ := List.mem_map.1 hq
      obtain ⟨h1, h2⟩ := hps.2.1 a ha
      exact ⟨by simp only [normR]; rw [h1], h2⟩
    · rw [List.map_map]; exact hps.2.2

/-- sums of terms proportional to the solid angle -/
theorem Cut.sum {l l' : List Ray} (h : Cut l l') (F : Ray → ℝ) (G : V3 → ℝ → ℝ) (hF : ∀ r, F r = r.om * G r.v r.lum) :
    sumBy F l' = sumBy F l := by
  induction h with
  | nil => rfl
  | @cons r ps l l' hps _ ih =>
    unfold sumBy at ih ⊢
    rw [List.map_append, List.sum_append, List.map_cons, List.sum_cons, ih]
    congr 1
    have : ps.map F = ps.map fun q => q.om * G r.v r.lum := by
      apply List.map_congr_left
      intro q hq
      obtain ⟨h1, h2⟩ := hps.2.1 q hq
      rw [hF, h1, h2]
    rw [this, List.sum_map_mul_right, hps.2.2, hF]

theorem Cut.lums {l l' : List Ray} (h : Cut l l') (x : ℝ) : x ∈ l'.map Ray.lum ↔ x ∈ l.map Ray.lum := by
  induction h with
  | nil => rfl
  | @cons r ps l l' hps _ ih =>
    rw [List.map_append, List.mem_append, List.map_cons, List.mem_cons, ih]
    have : x ∈ ps.map Ray.lum ↔ x = r.lum := by
      constructor
      · intro hx
        obtain ⟨q, hq, rfl⟩ := List.mem_map.1 hx
        exact (hps.2.1 q hq).2
      · rintro rfl
        obtain ⟨q, hq⟩ := List.exists_mem_of_ne_nil _ hps.1
        exact List.mem_map.2 ⟨q, hq, (hps.2.1 q hq).2⟩
    rw [this]

theorem Cut.length {l l' : List Ray} (h : Cut l l') : l.length ≤ l'.length ∧ (l = [] ↔ l' = []) := by
  induction h with
  | nil => simp
  | @cons r ps l l' hps _ ih =>
    have := List.length_pos_of_ne_nil hps.1
    refine ⟨by rw [List.length_append, List.length_cons]; omega, by simp [hps.1]⟩

theorem max_set {a b : List ℝ} (h : ∀ x, x ∈ a ↔ x ∈ b) : a.foldl max a.headI = b.foldl max b.headI := by
  cases a with
  | nil =>
    cases b with
    | nil => rfl
    | cons y b => exact absurd ((h y).2 List.mem_cons_self) (by simp)
  | cons x a =>
    cases b with
    | nil => exact absurd ((h x).1 List.mem_cons_self) (by simp)
    | cons y b =>
      simp only [List.headI]
      obtain ⟨h1, -, h3⟩ := foldl_max_spec x (x :: a)
      obtain ⟨g1, -, g3⟩ := foldl_max_spec y (y :: b)
      have m1 : (x :: a).foldl max x ∈ x :: a := by
        rcases h1 with h1 | h1
        · rw [h1]; exact List.mem_cons_self
        · exact h1
      have m2 : (y :: b).foldl max y ∈ y :: b := by
        rcases g1 with g1 | g1
        · rw [g1]; exact List.mem_cons_self
        · exact g1
      exact le_antisymm (g3 _ ((h _).1 m1)) (h3 _ ((h _).2 m2))

/-- the metrics that count rays -/
def Spec.perRay : List String := ["density", "avgraylum"]

/-- metrics of a set and of the same set with its rays cut -/
theorem attr_cut (s s' : MS) (hm : s'.m = s.m) (ho : s'.o = s.o) (hA : s'.area = s.area) (hc : Cut s.rays s'.rays)
    (n : String) (hn : n ∉ Spec.perRay) : msAttr s' n = msAttr s n := by
  have hct : s'.ct = s.ct := by funext r; unfold MS.ct; rw [hm]
  have hp : s'.pos = s.pos := by funext r; unfold MS.pos; rw [hm, ho]
  have hpw : s'.pw = s.pw := by funext r; unfold MS.pw; rw [hp]
  have om : ∀ {l l' : List Ray}, Cut l l' → omSum l' = omSum l := fun h =>
    Cut.sum h Ray.om (fun _ _ => 1) fun r => by ring
  have lo : ∀ {l l' : List Ray}, Cut l l' → sumBy (fun r => r.lum * r.om) l' = sumBy (fun r => r.lum * r.om) l := fun h =>
    Cut.sum h _ (fun _ l => l) fun r => by ring
  have ha : s'.pwArea = s.pwArea := by
    unfold MS.pwArea; rw [hpw]
    exact Cut.sum hc _ (fun v _ => 1 / positions s.o.guth s.m v ^ 2) fun r => by unfold MS.pw MS.pos; ring
  have e1 : s'.illum = s.illum := by
    unfold MS.illum; rw [hct, ho, Cut.sum hc _ (fun v l => Geo.ctheta s.m.dxyz v * l) fun r => by unfold MS.ct; ring]
  have e2 : s'.avglum = s.avglum := by unfold MS.avglum; rw [hA, ho, lo hc]
  have e3 : s'.pwavglum = s.pwavglum := by
    unfold MS.pwavglum
    rw [ha, ho, hpw, Cut.sum hc _ (fun v l => l / positions s.o.guth s.m v ^ 2) fun r => by unfold MS.pw MS.pos; ring]
  have e5 : s'.gcr = s.gcr := by
    unfold MS.gcr; rw [e2, hA, ho, Cut.sum hc _ (fun _ l => l * l) fun r => by ring]
  have e6 : s'.pwgcr = s.pwgcr := by
    unfold MS.pwgcr
    rw [e3, ha, ho, hpw, Cut.sum hc _ (fun v l => l * l / positions s.o.guth s.m v ^ 2) fun r => by unfold MS.pw MS.pos; ring]
  have e8 : s'.tasklum = s.tasklum := by
    unfold MS.tasklum
    have hf := Cut.filter hc (p := fun r => decide (s.m.degrees r.v < s.o.tradius)) fun a b h _ => by rw [h]
    rw [hm, ho, lo hf, om hf]
  have e9 : s'.threshold = s.threshold := by unfold MS.threshold; rw [ho, e8]
  have es : s'.src = s.src := by funext r; unfold MS.src; rw [e9, ho]
  have h1 : Cut s.sources s'.sources := by
    unfold MS.sources; rw [es]; exact Cut.filter hc fun a b _ h => by unfold MS.src; rw [h]
  have h2 : Cut s.background s'.background := by
    unfold MS.background; rw [es]; exact Cut.filter hc fun a b _ h => by unfold MS.src; rw [h]
  have e10 : s'.pwsl2 = s.pwsl2 := by
    unfold MS.pwsl2; rw [ho, hp]
    exact Cut.sum h1 _ (fun v l => l ^ 2 * s.o.scale ^ 2 / positions s.o.guth s.m v ^ 2) fun r => by unfold MS.pos; ring
  have e11 : s'.srcillum = s.srcillum := by
    unfold MS.srcillum
    rw [hct, ho, Cut.sum h1 _ (fun v l => Geo.ctheta s.m.dxyz v * l) fun r => by unfold MS.ct; ring]
  have e12 : s'.srcarea = s.srcarea := by unfold MS.srcarea; rw [om h1]
  have e13 : s'.maxlum = s.maxlum := by
    have hl : s'.rays.length > 0 ↔ s.rays.length > 0 := by
      rw [gt_iff_lt, gt_iff_lt, List.length_pos_iff, List.length_pos_iff, not_iff_not, (Cut.length hc).2]
    unfold MS.maxlum
    simp only [ho, hl, max_set (Cut.lums hc)]
  have e14 : s'.backlum = s.backlum := by unfold MS.backlum; rw [e1, e11]
  have e15 : s'.backlumTrue = s.backlumTrue := by unfold MS.backlumTrue; rw [ho, lo h2, om h2]
  have e16 : s'.logGc = s.logGc := by unfold MS.logGc; rw [e10, e1]
  have e17 : s'.dgpT1 = s.dgpT1 := by unfold MS.dgpT1; rw [e1]
  have e18 : s'.dgpT2 = s.dgpT2 := by unfold MS.dgpT2; rw [e16]
  have e19 : s'.dgp = s.dgp := by unfold MS.dgp MS.ll; rw [e17, e18, e1, ho]
  have e20 : s'.ugr = s.ugr := by unfold MS.ugr; rw [e10, e14]
  have e21 : s'.ugp = s.ugp := by unfold MS.ugp; rw [e20]
  have e22 : s'.loggcr = s.loggcr := by unfold MS.loggcr; rw [e5]
  have e23 : s'.logpwgcr = s.logpwgcr := by unfold MS.logpwgcr; rw [e6]
  have n1 : n ≠ "density" := fun h => hn (by simp [Spec.perRay, h])
  have n2 : n ≠ "avgraylum" := fun h => hn (by simp [Spec.perRay, h])
  unfold msAttr baseAttr
  by_cases hx : n = "maxlum"
  · simp only [hx, if_true, e13]
  simp only [n1, n2, hx, if_false]
  rw [e1, e2, e3, e5, e6, e8, e9, e10, e11, e12, e14, e15, e16, e17, e18, e19, e20, e21, e22, e23, hA]

/-- The claim: a scene may be sampled by more, smaller rays in the same directions; only metrics that count rays change. -/
def C172_statement : Prop :=
  ∀ (d : V3) (va : ℝ) (o : Opts) (rays rays' : List Ray) (fuel : ℕ) (s s' : MS), d ≠ V3.zero → 0 < va → va ≤ 180 →
    (∀ r ∈ rays, 0 ≤ r.om ∧ (View.new d va).inView 0 (Geo.norm r.v)) → (∀ r ∈ rays', 0 ≤ r.om) → Cut rays rays' →
    build (View.new d va) o rays fuel = some s → build (View.new d va) o rays' fuel = some s' →
    ∀ n, n ∉ Spec.perRay → msAttr s' n = msAttr s n

/-- **C172** cutting rays into coincident parts changes no metric that does not count rays, when the solid angles are
used as they are given: for `omega_as_view_area`, or at most 100 rays; every view -/
theorem C172_cut_partial (m : View) (o : Opts) (rays rays' : List Ray) (fuel : ℕ) (s : MS) (h : Cut rays rays')
    (hin : ∀ r ∈ rays, m.two = true ∨ m.inView 0 (Geo.norm r.v)) (hc : o.omAsArea = true ∨ rays'.length ≤ 100)
    (hb : build m o rays fuel = some s) :
    ∃ s', build m o rays' fuel = some s' ∧ ∀ n, n ∉ Spec.perRay → msAttr s' n = msAttr s n := by
  have hin' : ∀ {l l' : List Ray}, Cut l l' → (∀ r ∈ l, m.two = true ∨ m.inView 0 (Geo.norm r.v)) →
      ∀ r ∈ l', m.two = true ∨ m.inView 0 (Geo.norm r.v) := by
    intro l l' h
    induction h with
    | nil => simp
    | @cons r ps l l' hps _ ih =>
      intro hl q hq
      rcases List.mem_append.1 hq with hq | hq
      · rw [(hps.2.1 q hq).1]; exact hl r List.mem_cons_self
      · exact ih (fun r hr => hl r (List.mem_cons_of_mem _ hr)) q hq
  have pl : ∀ l : List Ray, (∀ r ∈ l, m.two = true ∨ m.inView 0 (Geo.norm r.v)) → Plain m l := by
    intro l hl
    by_cases ht : m.two = true
    · exact Or.inl ht
    · exact plain_of_inView m l fun r hr => (hl r hr).resolve_left ht
  have hv : Cut (viewRays m rays) (viewRays m rays') := by
    rw [viewRays_plain m _ (pl _ hin), viewRays_plain m _ (pl _ (hin' h hin))]
    exact Cut.filter (Cut.norm h) fun a b h _ => by unfold vis; rw [h]
  have hl' : (viewRays m rays').length ≤ rays'.length := by
    rw [viewRays_plain m _ (pl _ (hin' h hin))]
    exact (List.length_filter_le _ _).trans (by simp)
  have cond : ∀ l : List Ray, (o.omAsArea = true ∨ l.length ≤ 100) → (!o.omAsArea && decide (l.length > 100)) = false := by
    rintro l (hl | hl)
    · simp [hl]
    · simp [hl]
  unfold build setOmega at *
  rw [cond _ (hc.imp id fun hl => (Cut.length hv).1.trans (hl'.trans hl))] at hb
  rw [cond _ (hc.imp id fun hl => hl'.trans hl)]
  simp only [Bool.false_eq_true, if_false, Option.map_some, Option.some.injEq] at hb ⊢
  subst hb
  refine ⟨_, rfl, fun n hn => ?_⟩
  exact attr_cut ⟨m, viewRays m rays, omSum (viewRays m rays), o⟩ ⟨m, viewRays m rays', omSum (viewRays m rays'), o⟩ rfl rfl
    (Cut.sum hv Ray.om (fun _ _ => 1) fun r => by ring) hv n hn

/-! ### colour sets -/

/-- `ps` are parts of the coloured row `r` -/
def Spec.CParts {M : ℕ} (r : CRay M) (ps : List (CRay M)) : Prop :=
  ps ≠ [] ∧ (∀ q ∈ ps, q.v = r.v ∧ q.rgb = r.rgb) ∧ (ps.map CRay.om).sum = r.om

/-- every coloured row of a list cut into parts -/
inductive Spec.CCut {M : ℕ} : List (CRay M) → List (CRay M) → Prop
  | nil : Spec.CCut [] []
  | cons {r ps l l'} : Spec.CParts r ps → Spec.CCut l l' → Spec.CCut (r :: l) (ps ++ l')

theorem CCut.cut {M : ℕ} (w : Fin M → ℝ) {l l' : List (CRay M)} (h : Spec.CCut l l') :
    Cut (l.map (CRay.toRay w)) (l'.map (CRay.toRay w)) := by
  induction h with
  | nil => exact .nil
  | @cons r ps l l' hps _ ih =>
    rw [List.map_append, List.map_cons]
    refine .cons ⟨by simpa using hps.1, ?_, ?_⟩ ih
    · intro q hq
      obtain ⟨a, ha, rfl⟩ := List.mem_map.1 hq
      obtain ⟨h1, h2⟩ := hps.2.1 a ha
      exact ⟨h1, by simp only [CRay.toRay]; rw [h2]⟩
    · rw [List.map_map]; exact hps.2.2

open Classical in
theorem kept_plain (m : View) (rays : List Ray) (h : Plain m rays) :
    kept m rays = (List.range rays.length).filter fun i => vis m (normR (raw rays i)) := by
  unfold kept
  cases ht : m.two with
  | true =>
    rw [if_pos rfl, eq_comm, List.filter_eq_self]
    intro i _
    simp [vis, ht]
  | false =>
    have hs : strays m rays = [] := h.resolve_left (by simp [ht])
    have hsel : select m rays = sel0 m rays := by unfold select; rw [hs]; rfl
    simp only [Bool.false_eq_true, if_false, hsel]
    apply List.filter_congr
    intro i _
    simp only [vis, ht, sel0, normR, nv, Bool.false_or]
    congr

theorem raw_toRay {M : ℕ} (w : Fin M → ℝ) (rays : List (CRay M)) (i : ℕ) :
    raw (rays.map (CRay.toRay w)) i = CRay.toRay w (rays.getD i ⟨V3.zero, 0, fun _ => 0⟩) := by
  unfold raw
  rw [List.getD_eq_getElem?_getD, List.getD_eq_getElem?_getD, List.getElem?_map]
  cases rays[i]? with
  | none => simp [CRay.toRay, rgb2rad]
  | some r => rfl

theorem viewRays_kept (m : View) (rays : List Ray) (h : Plain m rays) :
    viewRays m rays = (kept m rays).map fun i => normR (raw rays i) := by
  unfold viewRays
  cases ht : m.two with
  | true => simp only [if_true]; rfl
  | false =>
    have hs : strays m rays = [] := h.resolve_left (by simp [ht])
    have hsel : select m rays = sel0 m rays := by unfold select; rw [hs]; rfl
    simp only [Bool.false_eq_true, if_false, hsel]
    rfl

/-- weights that pick one channel -/
def pick {M : ℕ} (j : Fin M) : Fin M → ℝ := fun k => if k = j then 1 else 0

theorem rgb2rad_pick {M : ℕ} (j : Fin M) (x : Fin M → ℝ) : rgb2rad (pick j) x = x j := by
  simp [rgb2rad, pick]

/-- the irradiance of a channel is the illuminance of a set that takes the channel for its luminance -/
theorem irradiance_pick {M : ℕ} (m : View) (o : Opts) (w : Fin M → ℝ) (rays : List (CRay M)) (a : ℝ) (j : Fin M)
    (hp : ∀ w : Fin M → ℝ, Plain m (rays.map (CRay.toRay w))) :
    (⟨⟨m, viewRays m (rays.map (CRay.toRay w)), a, o⟩, (kept m (rays.map (CRay.toRay w))).map fun i =>
      (rays.getD i ⟨V3.zero, 0, fun _ => 0⟩).rgb⟩ : CMS M).irradiance j =
    (⟨m, viewRays m (rays.map (CRay.toRay (pick j))), a, o⟩ : MS).illum := by
  have hk : kept m (rays.map (CRay.toRay w)) = kept m (rays.map (CRay.toRay (pick j))) := by
    rw [kept_plain m _ (hp w), kept_plain m _ (hp _), List.length_map, List.length_map]
    apply List.filter_congr
    intro i _
    rw [raw_toRay, raw_toRay]
    rfl
  unfold CMS.irradiance MS.illum sumBy
  simp only
  rw [viewRays_kept m _ (hp w), viewRays_kept m _ (hp _), hk, List.zip_map', List.map_map, List.map_map]
  congr 2
  apply List.map_congr_left
  intro i _
  simp only [Function.comp, raw_toRay, normR, CRay.toRay, rgb2rad_pick]
  rfl

/-- **C172** for colour sets: every value, the irradiance of each channel included -/
theorem C172_colour_partial {M : ℕ} (m : View) (o : Opts) (w : Fin M → ℝ) (rays rays' : List (CRay M)) (fuel : ℕ)
    (c : CMS M) (h : Spec.CCut rays rays') (hin : ∀ r ∈ rays, m.two = true ∨ m.inView 0 (Geo.norm r.v))
    (hc : o.omAsArea = true ∨ rays'.length ≤ 100) (hb : buildColor m o w rays fuel = some c) :
    ∃ c', buildColor m o w rays' fuel = some c' ∧ ∀ n, n ∉ Spec.perRay → colAttr c' n = colAttr c n := by
  have hin' : ∀ {l l' : List (CRay M)}, Spec.CCut l l' → (∀ r ∈ l, m.two = true ∨ m.inView 0 (Geo.norm r.v)) →
      ∀ r ∈ l', m.two = true ∨ m.inView 0 (Geo.norm r.v) := by
    intro l l' h
    induction h with
    | nil => simp
    | @cons r ps l l' hps _ ih =>
      intro hl q hq
      rcases List.mem_append.1 hq with hq | hq
      · rw [(hps.2.1 q hq).1]; exact hl r List.mem_cons_self
      · exact ih (fun r hr => hl r (List.mem_cons_of_mem _ hr)) q hq
  have pl : ∀ l : List (CRay M), (∀ r ∈ l, m.two = true ∨ m.inView 0 (Geo.norm r.v)) →
      ∀ w : Fin M → ℝ, Plain m (l.map (CRay.toRay w)) := by
    intro l hl w
    by_cases ht : m.two = true
    · exact Or.inl ht
    · refine plain_of_inView m _ fun r hr => ?_
      obtain ⟨q, hq, rfl⟩ := List.mem_map.1 hr
      exact (hl q hq).resolve_left ht
  have hlen : ∀ (l : List (CRay M)) (w : Fin M → ℝ), (∀ r ∈ l, m.two = true ∨ m.inView 0 (Geo.norm r.v)) →
      (viewRays m (l.map (CRay.toRay w))).length ≤ l.length := by
    intro l w hl
    rw [viewRays_plain m _ (pl l hl w)]
    exact (List.length_filter_le _ _).trans (by simp)
  have cond : ∀ l : List Ray, (o.omAsArea = true ∨ l.length ≤ 100) → (!o.omAsArea && decide (l.length > 100)) = false := by
    rintro l (hl | hl)
    · simp [hl]
    · simp [hl]
  have hC : ∀ w : Fin M → ℝ, Cut (viewRays m (rays.map (CRay.toRay w))) (viewRays m (rays'.map (CRay.toRay w))) := by
    intro w
    rw [viewRays_plain m _ (pl _ hin w), viewRays_plain m _ (pl _ (hin' h hin) w)]
    exact Cut.filter (Cut.norm (CCut.cut w h)) fun a b h _ => by unfold vis; rw [h]
  unfold buildColor build setOmega at *
  rw [cond _ (hc.imp id fun hl => (Cut.length (hC w)).1.trans ((hlen _ w (hin' h hin)).trans hl))] at hb
  rw [cond _ (hc.imp id fun hl => (hlen _ w (hin' h hin)).trans hl)]
  simp only [Bool.false_eq_true, if_false, Option.map_some, Option.some.injEq] at hb ⊢
  subst hb
  refine ⟨_, rfl, fun n hn => ?_⟩
  have hA : ∀ w' : Fin M → ℝ, omSum (viewRays m (rays'.map (CRay.toRay w'))) = omSum (viewRays m (rays.map (CRay.toRay w'))) :=
    fun w' => Cut.sum (hC w') Ray.om (fun _ _ => 1) fun r => by ring
  unfold colAttr
  split_ifs with hi
  · congr 2
    funext j
    rw [irradiance_pick m o w rays _ j (pl _ hin), irradiance_pick m o w rays' _ j (pl _ (hin' h hin)), hA w]
    unfold MS.illum
    simp only
    congr 1
    exact Cut.sum (hC (pick j)) _ (fun v lum => Geo.ctheta m.dxyz v * lum) fun r => by simp only [MS.ct]; ring
  · congr 1
    exact attr_cut ⟨m, viewRays m (rays.map (CRay.toRay w)), omSum (viewRays m (rays.map (CRay.toRay w))), o⟩
      ⟨m, viewRays m (rays'.map (CRay.toRay w)), omSum (viewRays m (rays'.map (CRay.toRay w))), o⟩ rfl rfl (hA w) (hC w) n hn

-- a coloured ray in two unequal parts
example : Spec.CCut [(⟨⟨0, 1, 0⟩, 1, ![1, 2, 3]⟩ : CRay 3)] [⟨⟨0, 1, 0⟩, 1 / 4, ![1, 2, 3]⟩, ⟨⟨0, 1, 0⟩, 3 / 4, ![1, 2, 3]⟩] :=
  .cons (ps := [⟨⟨0, 1, 0⟩, 1 / 4, ![1, 2, 3]⟩, ⟨⟨0, 1, 0⟩, 3 / 4, ![1, 2, 3]⟩]) ⟨by simp, by simp, by norm_num⟩ .nil

/-- a hundred rays straight ahead -/
noncomputable def hundred : List Ray := List.replicate 100 ⟨⟨0, 1, 0⟩, 1, 1⟩

/-- the first of them in two halves -/
noncomputable def hundredOne : List Ray := [⟨⟨0, 1, 0⟩, 1 / 2, 1⟩, ⟨⟨0, 1, 0⟩, 1 / 2, 1⟩] ++ List.replicate 99 ⟨⟨0, 1, 0⟩, 1, 1⟩

theorem cut_refl (l : List Ray) : Cut l l := by
  induction l with
  | nil => exact .nil
  | cons r l ih => exact .cons (ps := [r]) ⟨by simp, by simp, by simp⟩ ih

theorem hundred_cut : Cut hundred hundredOne :=
  .cons (r := ⟨⟨0, 1, 0⟩, 1, 1⟩) (l := List.replicate 99 ⟨⟨0, 1, 0⟩, 1, 1⟩) ⟨by simp, by simp, by norm_num⟩ (cut_refl _)

theorem C172_refuted : ¬ C172_statement := by
  intro h
  have hd : (⟨0, 1, 0⟩ : V3) ≠ V3.zero := by simp [V3.zero]
  have ahead : yView.inView 0 ⟨0, 1, 0⟩ := (y_inView y_unit).2 one_pos
  have hall : ∀ r ∈ hundredOne, r.v = ⟨0, 1, 0⟩ ∧ 0 ≤ r.om := by
    intro r hr
    unfold hundredOne at hr
    simp only [List.mem_append, List.mem_cons, List.not_mem_nil, or_false, List.mem_replicate] at hr
    rcases hr with (rfl | rfl) | ⟨-, rfl⟩ <;> exact ⟨rfl, by norm_num⟩
  have hin : ∀ r ∈ hundred, r.v = ⟨0, 1, 0⟩ ∧ 0 ≤ r.om := by
    intro r hr
    rw [List.eq_of_mem_replicate hr]; exact ⟨rfl, by norm_num⟩
  have vr : ∀ l : List Ray, (∀ r ∈ l, r.v = ⟨0, 1, 0⟩ ∧ 0 ≤ r.om) → viewRays yView l = l := by
    intro l hl
    rw [viewRays_plain _ _ (plain_of_inView _ _ fun r hr => by rw [(hl r hr).1, Geo.norm_of_unit y_unit]; exact ahead)]
    have : l.map normR = l := by
      conv_rhs => rw [← List.map_id l]
      apply List.map_congr_left
      intro r hr
      unfold normR
      rw [(hl r hr).1, Geo.norm_of_unit y_unit, ← (hl r hr).1]; rfl
    rw [this, List.filter_eq_self]
    intro r hr
    unfold vis
    rw [(hl r hr).1]
    simp [ahead]
  let o : Opts := ⟨1, true, false, 2000, 30, false⟩
  obtain ⟨fuel, s', hs'⟩ := build_ends (d := ⟨0, 1, 0⟩) (va := 180) (by norm_num) (Or.inl le_rfl) o hundredOne
    (fun r hr => (hall r hr).2)
  have h1 : build yView o hundred fuel = some ⟨yView, hundred, omSum hundred, o⟩ := by
    unfold build setOmega
    rw [vr _ hin]
    simp [hundred]
  have hs2 : build yView o hundredOne fuel = some s' := hs'
  have h2 : s'.area = yView.area := by
    unfold build setOmega at hs2
    rw [vr _ hall] at hs2
    have hl : (!o.omAsArea && decide (hundredOne.length > 100)) = true := by simp [o, hundredOne]
    rw [hl] at hs2
    simp only [if_true, Option.map_eq_some_iff] at hs2
    obtain ⟨r, ⟨k, -, rfl⟩, rfl⟩ := hs2
    rfl
  have h3 := h ⟨0, 1, 0⟩ 180 o hundred hundredOne fuel _ s' hd (by norm_num) le_rfl
    (fun r hr => ⟨(hin r hr).2, by rw [(hin r hr).1, Geo.norm_of_unit y_unit]; exact ahead⟩)
    (fun r hr => (hall r hr).2) hundred_cut h1 hs' "view_area" (by simp [Spec.perRay])
  have e : ∀ s : MS, msAttr s "view_area" = .ok s.area := fun s => by simp [msAttr]
  rw [e, e, Except.ok.injEq, h2] at h3
  have ha : yView.area = 2 * π := by
    show 2 * π * (1 - cos (vangle 180 * π * vaspect 180 / 360)) = 2 * π
    have : vangle 180 * π * vaspect 180 / 360 = π / 2 := by unfold vangle vaspect; norm_num; ring
    rw [this, cos_pi_div_two]; ring
  rw [ha] at h3
  have : omSum hundred = 100 := by
    unfold omSum hundred
    rw [List.map_replicate, List.sum_replicate]
    norm_num
  simp only [this] at h3
  linarith [pi_lt_four]

-- a scene and its cut meet the conditions of the theorem
example : Cut hundred hundredOne ∧ hundredOne.length = 101 ∧ ∀ r ∈ hundred, yView.inView 0 (Geo.norm r.v) := by
  refine ⟨hundred_cut, by simp [hundredOne], fun r hr => ?_⟩
  rw [List.eq_of_mem_replicate hr]
  simp only
  rw [Geo.norm_of_unit y_unit]
  exact (y_inView y_unit).2 one_pos

end Verif.Metric
