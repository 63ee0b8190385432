import Mathlib.Analysis.Complex.ExponentialBounds
import Verif.Props.Stray
import Verif.Props.PosIdx

/-! C171: turning or mirroring the scene together with the view about the vertical changes no metric. -/

namespace Verif.Metric
open Verif.Geo Verif.Map Verif.Pos Real

/-- A turn about the vertical axis (`e = 1`) by the angle with cosine `c` and sine `s`, or a mirroring in a vertical
plane (`e = -1`). -/
structure Spec.Turn where
  c : ℝ
  s : ℝ
  e : ℝ
  unit : c ^ 2 + s ^ 2 = 1
  sign : e = 1 ∨ e = -1

open Spec (Turn)

/-- the image of a vector -/
def Spec.Turn.v (T : Turn) (p : V3) : V3 := ⟨T.c * p.x - T.e * T.s * p.y, T.s * p.x + T.e * T.c * p.y, p.z⟩

/-- the image of a ray: its solid angle and luminance stay -/
def Spec.Turn.ray (T : Turn) (r : Ray) : Ray := ⟨T.v r.v, r.om, r.lum⟩

variable (T : Turn)

theorem Turn.sq : T.e * T.e = 1 := by rcases T.sign with h | h <;> rw [h] <;> norm_num

theorem turn_dot (p q : V3) : (T.v p).dot (T.v q) = p.dot q := by
  have h := T.unit
  have he := Turn.sq T
  unfold Turn.v V3.dot
  simp only
  linear_combination (p.x * q.x + p.y * q.y) * h + (p.y * q.y) * (T.c ^ 2 + T.s ^ 2) * he

theorem turn_normSq (p : V3) : (T.v p).normSq = p.normSq := by
  rw [← dot_self, ← dot_self, turn_dot]

theorem turn_cross (p q : V3) : cross (T.v p) (T.v q) = (T.v (cross p q)).smul T.e := by
  have h := T.unit
  have he := Turn.sq T
  unfold Turn.v cross V3.smul
  apply V3.ext <;> simp only
  · linear_combination T.s * (p.z * q.x - p.x * q.z) * he
  · linear_combination (T.c * (p.z * q.x - p.x * q.z)) * (-he)
  · linear_combination (T.e * (p.x * q.y - p.y * q.x)) * h

theorem turn_divS (p : V3) (a : ℝ) : T.v (p.divS a) = (T.v p).divS a := by
  unfold Turn.v V3.divS
  apply V3.ext <;> simp only <;> ring

theorem turn_norm (p : V3) : Geo.norm (T.v p) = T.v (Geo.norm p) := by
  unfold Geo.norm V3.len
  rw [turn_normSq, turn_divS]

theorem turn_norm1 (p : V3) : norm1 (T.v p) = T.v (norm1 p) := by
  unfold norm1
  rw [turn_normSq, turn_divS]

theorem turn_zero {p : V3} (h : p ≠ V3.zero) : T.v p ≠ V3.zero := by
  intro h0
  apply h
  have h1 := turn_normSq T p
  rw [h0] at h1
  have h2 : p.x ^ 2 + p.y ^ 2 + p.z ^ 2 = 0 := by
    have : V3.zero.normSq = 0 := by simp [V3.normSq, V3.zero]
    rw [this] at h1; unfold V3.normSq at h1; exact h1.symm
  apply V3.ext <;> unfold V3.zero <;> simp only <;> nlinarith [sq_nonneg p.x, sq_nonneg p.y, sq_nonneg p.z]

/-! view coordinates of a direction that is not vertical -/

/-- a direction at least 0.002 degrees away from vertical -/
def Sloped (d : V3) : Prop := d ≠ V3.zero ∧ 3.2e-5 < arccos (Geo.norm d).z ∧ arccos (Geo.norm d).z < π - 3.2e-5

theorem Sloped.clear {d : V3} (h : Sloped d) : Clear d := ⟨h.1, Or.inl h.2⟩

theorem Sloped.turn {d : V3} (h : Sloped d) : Sloped (T.v d) := by
  refine ⟨turn_zero T h.1, ?_⟩
  rw [turn_norm]
  exact h.2

/-- the horizontal length of the unit direction -/
noncomputable def hor (d : V3) : ℝ := √(1 - (Geo.norm d).z ^ 2)

theorem Sloped.hor_pos {d : V3} (h : Sloped d) : 0 < hor d := by
  unfold hor
  apply sqrt_pos.2
  by_contra hc
  have h1 : 1 ≤ (Geo.norm d).z ^ 2 := by linarith
  rcases le_or_gt 0 (Geo.norm d).z with h0 | h0
  · have : arccos (Geo.norm d).z = 0 := arccos_eq_zero.2 (by nlinarith)
    linarith [h.2.1]
  · have : arccos (Geo.norm d).z = π := arccos_eq_pi.2 (by nlinarith)
    linarith [h.2.2]

/-- view coordinates by products: towards the right, up and ahead -/
theorem Sloped.coords {d : V3} (h : Sloped d) (p : V3) :
    (fwd d p).x = p.dot (cross ⟨0, 0, 1⟩ (Geo.norm d)) / hor d ∧
    (fwd d p).y = (p.z - (Geo.norm d).z * p.dot (Geo.norm d)) / hor d ∧ (fwd d p).z = p.dot (Geo.norm d) := by
  have hl := h.clear.look.1
  have hp := h.hor_pos
  have hdot : ∀ p q, (fwd d p).dot (fwd d q) = p.dot q := fun p q => (C36_inverse d p q).2.2.1
  have hz : ∀ p, (fwd d p).z = p.dot (Geo.norm d) := by
    intro p
    have := hdot p (Geo.norm d)
    rw [hl] at this
    rw [← this]; simp [V3.dot]
  obtain ⟨ux, uy⟩ := C36_up d
  have uz : (fwd d ⟨0, 0, 1⟩).z = (Geo.norm d).z := by rw [hz]; simp [V3.dot]
  have un : (fwd d ⟨0, 0, 1⟩).y = hor d := by
    have := hdot ⟨0, 0, 1⟩ ⟨0, 0, 1⟩
    unfold V3.dot at this
    rw [ux, uz] at this
    simp only [mul_zero, zero_add, mul_one] at this
    unfold hor
    symm
    rw [show 1 - (Geo.norm d).z ^ 2 = (fwd d ⟨0, 0, 1⟩).y ^ 2 by linarith]
    exact sqrt_sq uy
  refine ⟨?_, ?_, hz p⟩
  · have := fwd_triple d p ⟨0, 0, 1⟩ (Geo.norm d)
    rw [hl] at this
    have e : cross (fwd d ⟨0, 0, 1⟩) ⟨0, 0, 1⟩ = ⟨hor d, 0, 0⟩ := by
      unfold cross
      rw [ux, un]
      apply V3.ext <;> simp
    rw [e] at this
    rw [← this, eq_div_iff hp.ne']
    simp [V3.dot]
  · have := hdot p ⟨0, 0, 1⟩
    have e : p.dot ⟨0, 0, 1⟩ = p.z := by simp [V3.dot]
    rw [e] at this
    unfold V3.dot at this
    rw [ux, un, uz, hz p] at this
    rw [eq_div_iff hp.ne']
    linarith

theorem turn_hor (d : V3) : hor (T.v d) = hor d := by
  unfold hor
  rw [turn_norm]
  rfl

/-- what turning does in the view: nothing, mirroring exchanges left and right -/
theorem fwd_turn {d : V3} (h : Sloped d) (p : V3) :
    fwd (T.v d) (T.v p) = ⟨T.e * (fwd d p).x, (fwd d p).y, (fwd d p).z⟩ := by
  obtain ⟨a1, a2, a3⟩ := h.coords p
  obtain ⟨b1, b2, b3⟩ := (h.turn T).coords (T.v p)
  apply V3.ext
  · simp only
    rw [b1, a1, turn_hor, turn_norm]
    have : (T.v p).dot (cross ⟨0, 0, 1⟩ (T.v (Geo.norm d))) = T.e * p.dot (cross ⟨0, 0, 1⟩ (Geo.norm d)) := by
      have hh := T.unit
      unfold Turn.v cross V3.dot
      simp only
      linear_combination (T.e * (p.y * (Geo.norm d).x - p.x * (Geo.norm d).y)) * hh
    rw [this]; ring
  · simp only
    rw [b2, a2, turn_hor, turn_norm, turn_dot]
    rfl
  · simp only
    rw [b3, a3, turn_norm, turn_dot]

/-! the direction a ray at the edge is moved to -/

theorem app_cross {M : M3} (h : IsRot M) (a b : V3) : M3.app M (cross a b) = cross (M3.app M a) (M3.app M b) := by
  have key : ∀ w : V3, w.dot (M3.app M (cross a b)) = w.dot (cross (M3.app M a) (M3.app M b)) := by
    intro w
    have e : w = M3.app M (M3.app M.transpose w) := by rw [app_mul, h.2.1, app_one]
    rw [e, app_dot h, app_triple, h.2.2, one_mul]
  have k1 := key ⟨1, 0, 0⟩
  have k2 := key ⟨0, 1, 0⟩
  have k3 := key ⟨0, 0, 1⟩
  unfold V3.dot at k1 k2 k3
  simp only [one_mul, zero_mul, add_zero, zero_add] at k1 k2 k3
  exact V3.ext k1 k2 k3

theorem fwd_cross (u a b : V3) : fwd u (cross a b) = cross (fwd u a) (fwd u b) := by
  obtain ⟨hy, hp⟩ := C36_rotations u
  unfold fwd
  rw [app_cross hy, app_cross hp]

theorem fwd_comb (u a b c : V3) (x y z : ℝ) :
    fwd u (((a.smul x).add (b.smul y)).add (c.smul z)) = (((fwd u a).smul x).add ((fwd u b).smul y)).add ((fwd u c).smul z) := by
  unfold fwd M3.app V3.add V3.smul
  apply V3.ext <;> simp only <;> ring

/-- the constructor turns a ray at the edge about the given axis, by Rodrigues' formula -/
theorem moved_rodrigues {u : V3} (h : Clear u) (v : V3) (r : ℝ) :
    moved u v r = ((v.smul (cos r)).add ((cross (Geo.norm u) v).smul (sin r))).add
      ((Geo.norm u).smul ((Geo.norm u).dot v * (1 - cos r))) := by
  have inj : ∀ a b, fwd u a = fwd u b → a = b := fun a b hab => by
    rw [← (C36_inverse u a V3.zero).1, hab, (C36_inverse u b V3.zero).1]
  apply inj
  rw [fwd_comb, fwd_cross, h.look.1]
  unfold moved
  rw [(C36_inverse u _ V3.zero).2.1, rot2]
  have hz : (Geo.norm u).dot v = (fwd u v).z := by
    rw [← (C36_inverse u (Geo.norm u) v).2.2.1, h.look.1]; simp [V3.dot]
  rw [hz]
  unfold cross V3.add V3.smul angleOf
  apply V3.ext <;> simp <;> ring

theorem smul_len {e : ℝ} (he : e = 1 ∨ e = -1) (u : V3) : Geo.norm (u.smul e) = (Geo.norm u).smul e := by
  rcases he with rfl | rfl
  · unfold V3.smul; simp
  · have : u.smul (-1) = u.neg := by unfold V3.smul V3.neg; simp
    rw [this, neg_norm]
    unfold V3.smul V3.neg; simp

theorem clear_turn {u : V3} (h : Clear u) : Clear ((T.v u).smul T.e) := by
  have h1 : Clear (T.v u) := by
    refine ⟨turn_zero T h.1, ?_⟩
    rw [turn_norm]
    rcases h.2 with h | h | h
    · exact Or.inl h
    · right; left; rw [h]; simp [Turn.v]
    · right; right; rw [h]; simp [Turn.v]
  rcases T.sign with he | he
  · rw [he]
    have : (T.v u).smul 1 = T.v u := by unfold V3.smul; simp
    rw [this]; exact h1
  · rw [he]
    have : (T.v u).smul (-1) = (T.v u).neg := by unfold V3.smul V3.neg; simp
    rw [this]; exact h1.neg

theorem moved_turn {v d : V3} (h : Clear (cross v d)) (r : ℝ) :
    moved (cross (T.v v) (T.v d)) (T.v v) r = T.v (moved (cross v d) v r) := by
  rw [turn_cross, moved_rodrigues (clear_turn T h), moved_rodrigues h, smul_len T.sign, turn_norm]
  generalize Geo.norm (cross v d) = n
  have he := Turn.sq T
  have e1 : cross ((T.v n).smul T.e) (T.v v) = T.v (cross n v) := by
    have : cross ((T.v n).smul T.e) (T.v v) = (cross (T.v n) (T.v v)).smul T.e := by
      unfold cross V3.smul; apply V3.ext <;> simp only <;> ring
    rw [this, turn_cross]
    unfold V3.smul
    apply V3.ext <;> simp only <;> rw [← mul_assoc, he, one_mul]
  have e2 : ((T.v n).smul T.e).dot (T.v v) = T.e * n.dot v := by
    rw [← turn_dot T n v]; unfold V3.smul V3.dot; simp only; ring
  rw [e1, e2]
  unfold V3.smul V3.add Turn.v
  apply V3.ext <;> simp only
  · linear_combination ((T.c * n.x - T.e * T.s * n.y) * (n.dot v * (1 - cos r))) * he
  · linear_combination ((T.s * n.x + T.e * T.c * n.y) * (n.dot v * (1 - cos r))) * he
  · linear_combination (n.z * (n.dot v * (1 - cos r))) * he

/-! the constructor -/

variable (d : V3) (va : ℝ)

theorem turn_radians (p : V3) : (View.new (T.v d) va).radians (T.v p) = (View.new d va).radians p := by
  unfold View.radians Geo.radians Geo.ctheta
  show arccos (clip1 ((norm1 (T.v d)).dot (T.v p))) = arccos (clip1 ((norm1 d).dot p))
  rw [turn_norm1, turn_dot]

theorem turn_degrees (p : V3) : (View.new (T.v d) va).degrees (T.v p) = (View.new d va).degrees p := by
  unfold View.degrees
  rw [turn_radians]

theorem turn_inView (t : ℝ) (p : V3) : (View.new (T.v d) va).inView t (T.v p) ↔ (View.new d va).inView t p := by
  unfold View.inView
  rw [turn_radians]
  rfl

theorem turn_raw (rays : List Ray) (i : ℕ) : raw (rays.map T.ray) i = T.ray (raw rays i) := by
  unfold raw
  rw [List.getD_eq_getElem?_getD, List.getD_eq_getElem?_getD, List.getElem?_map]
  cases rays[i]? with
  | none => simp [Turn.ray, Turn.v, V3.zero]
  | some r => rfl

theorem turn_nv (rays : List Ray) (i : ℕ) : nv (rays.map T.ray) i = T.v (nv rays i) := by
  unfold nv
  rw [turn_raw]
  exact turn_norm T _

theorem turn_avgLum (rays : List Ray) : avgLum (rays.map T.ray) = avgLum rays := by
  unfold avgLum
  rw [List.map_map]; rfl

theorem turn_isStray (rays : List Ray) (i : ℕ) :
    IsStray (View.new (T.v d) va) (rays.map T.ray) i ↔ IsStray (View.new d va) rays i := by
  unfold IsStray
  rw [turn_avgLum, turn_nv, turn_inView, turn_degrees, turn_raw]
  rfl

theorem turn_strays (rays : List Ray) :
    strays (View.new (T.v d) va) (rays.map T.ray) = strays (View.new d va) rays := by
  unfold strays
  rw [List.length_map]
  congr 1
  funext i
  exact decide_eq_decide.2 (turn_isStray T d va rays i)

theorem turn_overlaps (rays : List Ray) (i : ℕ) :
    Overlaps (View.new (T.v d) va) (rays.map T.ray) i ↔ Overlaps (View.new d va) rays i := by
  unfold Overlaps
  rw [turn_nv, turn_radians, turn_raw]
  rfl

theorem turn_clipOm (rays : List Ray) (i : ℕ) :
    clipOm (View.new (T.v d) va) (rays.map T.ray) i = clipOm (View.new d va) rays i := by
  unfold clipOm
  rw [turn_nv, turn_radians, turn_raw]
  rfl

theorem turn_clipV (rays : List Ray) (i : ℕ) (h : Clear (cross (nv rays i) (View.new d va).dxyz)) :
    clipV (View.new (T.v d) va) (rays.map T.ray) i = T.v (clipV (View.new d va) rays i) := by
  unfold clipV
  rw [turn_nv, turn_radians, turn_raw]
  have e : (View.new (T.v d) va).dxyz = T.v (View.new d va).dxyz := turn_norm1 T d
  rw [e, moved_turn T h]
  rfl

/-- no ray at the edge lies within 0.002 degrees of the horizontal line through the view direction, unless exactly in it:
the axis it is moved about is not almost vertical -/
def Steady (m : View) (rays : List Ray) : Prop := ∀ i ∈ strays m rays, Clear (cross (nv rays i) m.dxyz)

/-- the arrays of the constructor turned -/
def TurnedSel (a b : Sel) : Prop := b.om = a.om ∧ (∀ i, b.v i = T.v (a.v i)) ∧ ∀ i, b.mask i ↔ a.mask i

theorem turn_fold (rays : List Ray) (l : List ℕ) (hl : ∀ i ∈ l, Clear (cross (nv rays i) (norm1 d))) (a b : Sel)
    (h : TurnedSel T a b) :
    TurnedSel T (l.foldl (strayStep (View.new d va) rays) a)
      (l.foldl (strayStep (View.new (T.v d) va) (rays.map T.ray)) b) := by
  induction l generalizing a b with
  | nil => exact h
  | cons j l ih =>
    apply ih (fun i hi => hl i (List.mem_cons_of_mem _ hi))
    unfold strayStep
    by_cases ho : Overlaps (View.new d va) rays j
    · rw [if_pos ho, if_pos ((turn_overlaps T d va rays j).2 ho)]
      refine ⟨?_, fun i => ?_, fun i => ?_⟩
      · simp only
        rw [turn_strays, turn_clipOm, h.1]
      · simp only
        split_ifs with hi
        · exact turn_clipV T d va rays j (hl j List.mem_cons_self)
        · exact h.2.1 i
      · simp only
        rw [h.2.2]
    · rw [if_neg ho, if_neg (fun hc => ho ((turn_overlaps T d va rays j).1 hc))]
      exact h

theorem turn_select (rays : List Ray) (hs : Steady (View.new d va) rays) :
    TurnedSel T (select (View.new d va) rays) (select (View.new (T.v d) va) (rays.map T.ray)) := by
  unfold select
  rw [turn_strays]
  apply turn_fold T d va rays _ hs
  refine ⟨?_, fun i => turn_nv T rays i, fun i => ?_⟩
  · funext i
    simp only [sel0]
    rw [turn_raw]; rfl
  · simp only [sel0]
    rw [turn_nv, turn_inView]

open Classical in
theorem turn_viewRays (rays : List Ray) (hs : (View.new d va).two = true ∨ Steady (View.new d va) rays) :
    viewRays (View.new (T.v d) va) (rays.map T.ray) = (viewRays (View.new d va) rays).map T.ray := by
  have e : (View.new (T.v d) va).two = (View.new d va).two := rfl
  unfold viewRays kept
  rw [List.map_map, e, List.length_map]
  cases ht : (View.new d va).two with
  | true =>
    simp only [if_true]
    apply List.map_congr_left
    intro i _
    simp only [Function.comp, Turn.ray]
    rw [turn_nv, turn_raw]; rfl
  | false =>
    obtain ⟨h1, h2, h3⟩ := turn_select T d va rays (hs.resolve_left (by simp [ht]))
    simp only [Bool.false_eq_true, if_false]
    have : (fun i => decide ((select (View.new (T.v d) va) (rays.map T.ray)).mask i)) =
        fun i => decide ((select (View.new d va) rays).mask i) := by
      funext i; exact decide_eq_decide.2 (h3 i)
    rw [this]
    apply List.map_congr_left
    intro i _
    simp only [Function.comp, Turn.ray]
    rw [h1, h2, turn_raw]; rfl

theorem turn_onEdge (k : ℕ) (r : Ray) : onEdge (View.new (T.v d) va) k (T.ray r) = onEdge (View.new d va) k r := by
  unfold onEdge
  show decide ((View.new (T.v d) va).radians (T.v r.v) > _) = _
  rw [turn_radians]
  rfl

theorem turn_omSum (l : List Ray) : omSum (l.map T.ray) = omSum l := by
  unfold omSum
  rw [List.map_map]; rfl

theorem turn_edgeTotal (k : ℕ) (l : List Ray) :
    edgeTotal (View.new (T.v d) va) k (l.map T.ray) = edgeTotal (View.new d va) k l := by
  unfold edgeTotal
  rw [List.filter_map, turn_omSum]
  congr 2
  funext r
  exact turn_onEdge T d va k r

theorem turn_adjust (k : ℕ) (l : List Ray) :
    adjust (View.new (T.v d) va) k (l.map T.ray) = adjust (View.new d va) k l := by
  unfold adjust excess
  rw [turn_edgeTotal, turn_omSum]
  rfl

theorem turn_widen (l : List Ray) (fuel k : ℕ) :
    widen (View.new (T.v d) va) (l.map T.ray) fuel k = widen (View.new d va) l fuel k := by
  induction fuel generalizing k with
  | zero => rfl
  | succ f ih => unfold widen; rw [turn_adjust, ih]

theorem turn_apply (k : ℕ) (l : List Ray) :
    applyAdjust (View.new (T.v d) va) k (l.map T.ray) = (applyAdjust (View.new d va) k l).map T.ray := by
  unfold applyAdjust
  rw [List.map_map, List.map_map, turn_adjust]
  apply List.map_congr_left
  intro r _
  simp only [Function.comp]
  rw [turn_onEdge]
  rfl

theorem turn_setOmega (c : Bool) (l : List Ray) (fuel : ℕ) :
    setOmega (View.new (T.v d) va) c (l.map T.ray) fuel =
      (setOmega (View.new d va) c l fuel).map fun r => (r.1.map T.ray, r.2) := by
  unfold setOmega
  rw [List.length_map]
  split_ifs
  · rw [turn_widen, Option.map_map]
    cases widen (View.new d va) l fuel 0 with
    | none => rfl
    | some k =>
      simp only [Option.map_some, Function.comp, Option.some.injEq, Prod.mk.injEq]
      exact ⟨turn_apply T d va k l, rfl⟩
  · rw [turn_omSum]; rfl

/-- the metrics that use a position index -/
def Spec.positional : List String :=
  ["pwavglum", "pwgcr", "logpwgcr", "pwsl2", "log_gc", "dgp_t2", "dgp", "ugr", "ugp"]

/-- a set with the same solid angles and luminances in directions that the metrics do not distinguish has the same
metrics -/
theorem attr_map (s s' : MS) (g : Ray → Ray) (ho : s'.o = s.o) (hA : s'.area = s.area) (hr : s'.rays = s.rays.map g)
    (hom : ∀ r, (g r).om = r.om) (hlum : ∀ r, (g r).lum = r.lum) (hct : ∀ r, s'.ct (g r) = s.ct r)
    (hdeg : ∀ r, s'.m.degrees (g r).v = s.m.degrees r.v) (n : String)
    (hn : (∀ r, s'.pos (g r) = s.pos r) ∨ n ∉ Spec.positional) :
    msAttr s' n = msAttr s n := by
  have sm : ∀ (l : List Ray) (f f' : Ray → ℝ), (∀ r, f' (g r) = f r) → sumBy f' (l.map g) = sumBy f l := by
    intro l f f' h
    unfold sumBy
    rw [List.map_map]
    congr 1
    apply List.map_congr_left
    intro r _; exact h r
  have fl : ∀ (p p' : Ray → Bool), (∀ r, p' (g r) = p r) → s'.rays.filter p' = (s.rays.filter p).map g := by
    intro p p' h
    rw [hr, List.filter_map]
    congr 2
    funext r; exact h r
  have e1 : s'.illum = s.illum := by
    unfold MS.illum; rw [hr, ho, sm _ _ _ fun r => by rw [hct, hlum, hom]]
  have e2 : s'.avglum = s.avglum := by
    unfold MS.avglum; rw [hr, hA, ho, sm _ _ _ fun r => by rw [hlum, hom]]
  have el : s'.rays.map Ray.lum = s.rays.map Ray.lum := by
    rw [hr, List.map_map]; apply List.map_congr_left; intro r _; exact hlum r
  have e4 : s'.avgraylum = s.avgraylum := by unfold MS.avgraylum; rw [el, ho]
  have e5 : s'.gcr = s.gcr := by
    unfold MS.gcr; rw [e2, hr, hA, ho, sm _ _ _ fun r => by rw [hlum, hom]]
  have hlen : s'.rays.length = s.rays.length := by rw [hr, List.length_map]
  have e7 : s'.density = s.density := by unfold MS.density; rw [hA, hlen]
  have osm : ∀ l : List Ray, omSum (l.map g) = omSum l := fun l => by
    unfold omSum; rw [List.map_map]; congr 1; apply List.map_congr_left; intro r _; exact hom r
  have e8 : s'.tasklum = s.tasklum := by
    unfold MS.tasklum
    rw [fl (fun r => decide (s.m.degrees r.v < s.o.tradius)) _ fun r => by rw [hdeg, ho], osm, ho,
      sm _ _ _ fun r => by rw [hlum, hom]]
  have e9 : s'.threshold = s.threshold := by unfold MS.threshold; rw [ho, e8]
  have es : ∀ r, s'.src (g r) = s.src r := fun r => by unfold MS.src; rw [e9, ho, hlum]
  have h1 : s'.sources = s.sources.map g := fl _ _ es
  have h2 : s'.background = s.background.map g := fl _ _ fun r => by rw [es]
  have e11 : s'.srcillum = s.srcillum := by
    unfold MS.srcillum; rw [h1, ho, sm _ _ _ fun r => by rw [hct, hlum, hom]]
  have e12 : s'.srcarea = s.srcarea := by unfold MS.srcarea; rw [h1, osm]
  have e13 : s'.maxlum = s.maxlum := by unfold MS.maxlum; rw [ho, hlen, el]
  have e14 : s'.backlum = s.backlum := by unfold MS.backlum; rw [e1, e11]
  have e15 : s'.backlumTrue = s.backlumTrue := by
    unfold MS.backlumTrue; rw [h2, ho, osm, sm _ _ _ fun r => by rw [hlum, hom]]
  have e17 : s'.dgpT1 = s.dgpT1 := by unfold MS.dgpT1; rw [e1]
  have e22 : s'.loggcr = s.loggcr := by unfold MS.loggcr; rw [e5]
  rcases hn with hp | hn
  swap
  · simp only [Spec.positional, List.mem_cons, List.not_mem_nil, or_false, not_or] at hn
    obtain ⟨n1, n2, n3, n4, n5, n6, n7, n8, n9⟩ := hn
    unfold msAttr baseAttr MS.maxlumBase
    simp only [n1, n2, n3, n4, n5, n6, n7, n8, n9, if_false]
    rw [e1, e2, e4, e5, e7, e8, e9, e11, e12, e13, e14, e15, e17, e22, hA, hlen]
  have hpw : ∀ r, s'.pw (g r) = s.pw r := fun r => by unfold MS.pw; rw [hp, hom]
  have ha : s'.pwArea = s.pwArea := by unfold MS.pwArea; rw [hr]; exact sm _ _ _ hpw
  have e3 : s'.pwavglum = s.pwavglum := by
    unfold MS.pwavglum; rw [hr, ha, ho, sm _ _ _ fun r => by rw [hlum, hpw]]
  have e6 : s'.pwgcr = s.pwgcr := by
    unfold MS.pwgcr; rw [e3, hr, ha, ho, sm _ _ _ fun r => by rw [hlum, hpw]]
  have e10 : s'.pwsl2 = s.pwsl2 := by
    unfold MS.pwsl2; rw [h1]; exact sm _ _ _ fun r => by rw [hp, hlum, hom, ho]
  have e16 : s'.logGc = s.logGc := by unfold MS.logGc; rw [e10, e1]
  have e18 : s'.dgpT2 = s.dgpT2 := by unfold MS.dgpT2; rw [e16]
  have e19 : s'.dgp = s.dgp := by unfold MS.dgp MS.ll; rw [e17, e18, e1, ho]
  have e20 : s'.ugr = s.ugr := by unfold MS.ugr; rw [e10, e14]
  have e21 : s'.ugp = s.ugp := by unfold MS.ugp; rw [e20]
  have e23 : s'.logpwgcr = s.logpwgcr := by unfold MS.logpwgcr; rw [e6]
  unfold msAttr baseAttr MS.maxlumBase
  rw [e1, e2, e3, e4, e5, e6, e7, e8, e9, e10, e11, e12, e13, e14, e15, e16, e17, e18, e19, e20, e21, e22, e23, hA, hlen]

theorem pos_flip (guth : Bool) {e : ℝ} (he : e = 1 ∨ e = -1) (v : V3) (sigma : ℝ) :
    positionsV guth ⟨e * v.x, v.y, v.z⟩ sigma = positionsV guth v sigma := by
  have h2 : (e * v.x) ^ 2 = v.x ^ 2 := by rcases he with rfl | rfl <;> ring
  have h0 : e * v.x = 0 ↔ v.x = 0 := by rcases he with rfl | rfl <;> simp
  unfold positionsV tauOf sigmaOf tau betaDeg
  simp only [h2, h0]

/-- The claim: the metrics depend on where things are relative to the view and the vertical, not on the compass. -/
def C171_statement : Prop :=
  ∀ (T : Turn) (d : V3) (va : ℝ) (o : Opts) (rays : List Ray) (fuel : ℕ) (s : MS), d ≠ V3.zero →
    build (View.new d va) o rays fuel = some s →
    ∃ s', build (View.new (T.v d) va) o (rays.map T.ray) fuel = some s' ∧ ∀ n, msAttr s' n = msAttr s n

/-- the built sets, for any direction -/
theorem turn_build (T : Turn) (d : V3) (va : ℝ) (o : Opts) (rays : List Ray) (fuel : ℕ) (s : MS)
    (hs : va = 360 ∨ Steady (View.new d va) rays) (hb : build (View.new d va) o rays fuel = some s) :
    s = ⟨View.new d va, s.rays, s.area, o⟩ ∧ build (View.new (T.v d) va) o (rays.map T.ray) fuel =
      some ⟨View.new (T.v d) va, s.rays.map T.ray, s.area, o⟩ := by
  have hv := turn_viewRays T d va rays (hs.imp (fun h => by show decide (va = 360) = true; simp [h]) id)
  unfold build at hb ⊢
  simp only [Option.map_eq_some_iff] at hb
  obtain ⟨r, hr, rfl⟩ := hb
  refine ⟨rfl, ?_⟩
  rw [hv, turn_setOmega, hr]
  rfl

theorem turn_ct (T : Turn) (d : V3) (va : ℝ) (l : List Ray) (a : ℝ) (o : Opts) (q : Ray) :
    (⟨View.new (T.v d) va, l.map T.ray, a, o⟩ : MS).ct (T.ray q) = (⟨View.new d va, l, a, o⟩ : MS).ct q := by
  unfold MS.ct Geo.ctheta
  show clip1 ((norm1 (T.v d)).dot (T.v q.v)) = clip1 ((norm1 d).dot q.v)
  rw [turn_norm1, turn_dot]

/-- **C171** turning or mirroring rays and view about the vertical leaves every metric unchanged, for views that are not
almost vertical -/
theorem C171_compass_partial (T : Turn) {d : V3} (hd : Sloped d) (va : ℝ) (o : Opts) (rays : List Ray) (fuel : ℕ) (s : MS)
    (hs : va = 360 ∨ Steady (View.new d va) rays) (hb : build (View.new d va) o rays fuel = some s) :
    ∃ s', build (View.new (T.v d) va) o (rays.map T.ray) fuel = some s' ∧ ∀ n, msAttr s' n = msAttr s n := by
  obtain ⟨e, hb'⟩ := turn_build T d va o rays fuel s hs hb
  refine ⟨_, hb', fun n => ?_⟩
  rw [e]
  refine attr_map ⟨View.new d va, s.rays, s.area, o⟩ ⟨View.new (T.v d) va, s.rays.map T.ray, s.area, o⟩ T.ray rfl rfl rfl
    (fun _ => rfl) (fun _ => rfl) (turn_ct T d va s.rays s.area o) (fun q => turn_degrees T d va q.v) n (Or.inl ?_)
  intro q
  unfold MS.pos positions
  show positionsV o.guth ((View.new (T.v d) va).w2v (Geo.norm (T.v q.v)))
    ((View.new (T.v d) va).degrees (Geo.norm (T.v q.v))) = positionsV o.guth ((View.new d va).w2v (Geo.norm q.v))
    ((View.new d va).degrees (Geo.norm q.v))
  rw [turn_norm, turn_degrees, new_w2v (turn_zero T hd.1), new_w2v hd.1, fwd_turn T hd, pos_flip _ T.sign]

/-- **C171** the metrics without a position index do not change for any view direction, vertical ones included -/
theorem C171_unweighted_partial (T : Turn) (d : V3) (va : ℝ) (o : Opts) (rays : List Ray) (fuel : ℕ) (s : MS)
    (hs : va = 360 ∨ Steady (View.new d va) rays) (hb : build (View.new d va) o rays fuel = some s) :
    ∃ s', build (View.new (T.v d) va) o (rays.map T.ray) fuel = some s' ∧
      ∀ n, n ∉ Spec.positional → msAttr s' n = msAttr s n := by
  obtain ⟨e, hb'⟩ := turn_build T d va o rays fuel s hs hb
  refine ⟨_, hb', fun n hn => ?_⟩
  rw [e]
  exact attr_map ⟨View.new d va, s.rays, s.area, o⟩ ⟨View.new (T.v d) va, s.rays.map T.ray, s.area, o⟩ T.ray rfl rfl rfl
    (fun _ => rfl) (fun _ => rfl) (turn_ct T d va s.rays s.area o) (fun q => turn_degrees T d va q.v) n (Or.inr hn)

/-- the image of a row of a colour set: its solid angle and channels stay -/
def Spec.Turn.cray {M : ℕ} (T : Turn) (r : CRay M) : CRay M := ⟨T.v r.v, r.om, r.rgb⟩

open Classical in
theorem turn_kept (T : Turn) (d : V3) (va : ℝ) (rays : List Ray)
    (hs : (View.new d va).two = true ∨ Steady (View.new d va) rays) :
    kept (View.new (T.v d) va) (rays.map T.ray) = kept (View.new d va) rays := by
  have e : (View.new (T.v d) va).two = (View.new d va).two := rfl
  unfold kept
  rw [e, List.length_map]
  cases ht : (View.new d va).two with
  | true => rfl
  | false =>
    obtain ⟨_, _, h3⟩ := turn_select T d va rays (hs.resolve_left (by simp [ht]))
    simp only [Bool.false_eq_true, if_false]
    exact List.filter_congr fun i _ => decide_eq_decide.2 (h3 i)

/-- **C171** for colour sets: every value, the irradiance of each channel included -/
theorem C171_colour_partial {M : ℕ} (w : Fin M → ℝ) (T : Turn) {d : V3} (hd : Sloped d) (va : ℝ) (o : Opts)
    (rays : List (CRay M)) (fuel : ℕ) (c : CMS M) (hs : va = 360 ∨ Steady (View.new d va) (rays.map (CRay.toRay w)))
    (hb : buildColor (View.new d va) o w rays fuel = some c) :
    ∃ c', buildColor (View.new (T.v d) va) o w (rays.map T.cray) fuel = some c' ∧ ∀ n, colAttr c' n = colAttr c n := by
  unfold buildColor at hb ⊢
  have e : (rays.map T.cray).map (CRay.toRay w) = (rays.map (CRay.toRay w)).map T.ray := by
    rw [List.map_map, List.map_map]; rfl
  simp only [Option.map_eq_some_iff] at hb ⊢
  obtain ⟨s, hb, rfl⟩ := hb
  have hs' : (View.new d va).two = true ∨ Steady (View.new d va) (rays.map (CRay.toRay w)) :=
    hs.imp (fun h => by show decide (va = 360) = true; simp [h]) id
  obtain ⟨e1, hb'⟩ := turn_build T d va o _ fuel s hs hb
  obtain ⟨s', hb2, hA⟩ := C171_compass_partial T hd va o _ fuel s hs hb
  rw [hb'] at hb2
  obtain rfl := Option.some.inj hb2
  refine ⟨_, ⟨_, by rw [e]; exact hb', rfl⟩, fun n => ?_⟩
  have hk : ((kept (View.new (T.v d) va) ((rays.map T.cray).map (CRay.toRay w))).map fun i =>
      ((rays.map T.cray).getD i ⟨V3.zero, 0, fun _ => 0⟩).rgb) =
      (kept (View.new d va) (rays.map (CRay.toRay w))).map fun i => (rays.getD i ⟨V3.zero, 0, fun _ => 0⟩).rgb := by
    rw [e, turn_kept T d va _ hs']
    apply List.map_congr_left
    intro i _
    rw [List.getD_eq_getElem?_getD, List.getD_eq_getElem?_getD, List.getElem?_map]
    cases rays[i]? <;> rfl
  unfold colAttr
  split_ifs with hn
  · congr 1
    congr 1
    funext j
    unfold CMS.irradiance
    simp only [hk]
    have hct := turn_ct T d va s.rays s.area o
    rw [e1]
    simp only
    congr 2
    rw [List.zip_map_left, List.map_map]
    apply List.map_congr_left
    intro p _
    simp only [Function.comp, Prod.map, hct]
    rfl
  · rw [hA n]

/-- rays given inside the view meet the condition on rays at the edge -/
theorem steady_of_inView (m : View) (rays : List Ray) (h : ∀ r ∈ rays, m.inView 0 (Geo.norm r.v)) : m.two = true ∨ Steady m rays := by
  rcases plain_of_inView m rays h with h | h
  · exact Or.inl h
  · right; intro i hi; rw [h] at hi; simp at hi

/-! A view straight up: its upper edge is fixed to the compass. -/

theorem z_unit : (⟨0, 0, 1⟩ : V3).normSq = 1 := by norm_num [V3.normSq]

theorem fwd_z (p : V3) : fwd ⟨0, 0, 1⟩ p = p := by
  have hu : allClose ⟨0, 0, 1⟩ ⟨0, 0, 1⟩ := by unfold allClose isclose; norm_num
  have hd : ¬ allClose ⟨0, 0, 1⟩ ⟨0, 0, -1⟩ := by
    unfold allClose isclose
    rintro ⟨-, -, h⟩
    norm_num at h
  unfold fwd ymtx pmtx
  rw [Geo.norm_of_unit z_unit, if_neg hd, if_neg hd, if_pos hu, if_pos hu]
  unfold M3.app
  apply V3.ext <;> simp

/-- a quarter turn -/
def quarter : Turn := ⟨0, 1, 1, by norm_num, Or.inl rfl⟩

/-- a source overhead of the view -/
noncomputable def overhead : Ray := ⟨⟨0, 3 / 5, 4 / 5⟩, 1, 3000⟩

/-- a source to the side -/
theorem overhead_turn : quarter.ray overhead = ⟨⟨-(3 / 5), 0, 4 / 5⟩, 1, 3000⟩ := by
  simp [Turn.ray, Turn.v, quarter, overhead]

noncomputable def upOpts : Opts := ⟨1, true, true, 2000, 30, false⟩

theorem z_dxyz : (View.new ⟨0, 0, 1⟩ 180).dxyz = ⟨0, 0, 1⟩ := by
  show norm1 ⟨0, 0, 1⟩ = _
  rw [norm1_norm (by simp [V3.zero]), Geo.norm_of_unit z_unit]

theorem z_radians {x y : ℝ} : (View.new ⟨0, 0, 1⟩ 180).radians ⟨x, y, 4 / 5⟩ = arccos (4 / 5) := by
  unfold View.radians Geo.radians Geo.ctheta clip1
  rw [z_dxyz]
  congr 1
  norm_num [V3.dot]

theorem acos_small : 0 < arccos (4 / 5) ∧ arccos (4 / 5) < π / 4 := by
  constructor
  · exact arccos_pos.2 (by norm_num)
  · have h : arccos (√2 / 2) = π / 4 := by
      rw [← cos_pi_div_four, arccos_cos (by positivity) (by linarith [pi_pos])]
    rw [← h]
    apply arccos_lt_arccos
    · have := sqrt_nonneg 2; linarith
    · have : √2 < 3 / 2 := by rw [sqrt_lt' (by norm_num)]; norm_num
      linarith
    · norm_num

theorem z_inView {x y : ℝ} : (View.new ⟨0, 0, 1⟩ 180).inView 0 ⟨x, y, 4 / 5⟩ := by
  unfold View.inView
  rw [z_radians]
  have : (View.new ⟨0, 0, 1⟩ 180).cf * (View.new ⟨0, 0, 1⟩ 180).va * π / 360 = π / 2 := by
    have h1 : (View.new ⟨0, 0, 1⟩ 180).va = 180 := by show vangle 180 = 180; unfold vangle; norm_num
    have h2 : (View.new ⟨0, 0, 1⟩ 180).cf = 1 := by
      show chordFactor (View.new ⟨0, 0, 1⟩ 180).va = 1
      rw [h1, cf_180]
    rw [h1, h2]; ring
  rw [this]
  linarith [acos_small.2, pi_pos]

theorem z_build {x y : ℝ} (h : x ^ 2 + y ^ 2 = 9 / 25) (fuel : ℕ) :
    build (View.new ⟨0, 0, 1⟩ 180) upOpts [⟨⟨x, y, 4 / 5⟩, 1, 3000⟩] fuel =
      some ⟨View.new ⟨0, 0, 1⟩ 180, [⟨⟨x, y, 4 / 5⟩, 1, 3000⟩], 1, upOpts⟩ := by
  have hu : (⟨x, y, 4 / 5⟩ : V3).normSq = 1 := by unfold V3.normSq; simp only; linarith
  have hin : ∀ r ∈ [(⟨⟨x, y, 4 / 5⟩, 1, 3000⟩ : Ray)], (View.new ⟨0, 0, 1⟩ 180).inView 0 (Geo.norm r.v) := by
    intro r hr
    rw [List.mem_singleton.1 hr]
    simp only
    rw [Geo.norm_of_unit hu]; exact z_inView
  unfold build
  rw [viewRays_plain _ _ (plain_of_inView _ _ hin)]
  have : ([(⟨⟨x, y, 4 / 5⟩, 1, 3000⟩ : Ray)].map normR).filter (vis (View.new ⟨0, 0, 1⟩ 180)) = [⟨⟨x, y, 4 / 5⟩, 1, 3000⟩] := by
    simp [normR, vis, Geo.norm_of_unit hu, z_inView]
  rw [this]
  simp [setOmega, upOpts, omSum]

theorem z_pwsl2 {x y : ℝ} :
    (⟨View.new ⟨0, 0, 1⟩ 180, [⟨⟨x, y, 4 / 5⟩, 1, 3000⟩], 1, upOpts⟩ : MS).pwsl2 =
      3000 ^ 2 / positions true (View.new ⟨0, 0, 1⟩ 180) ⟨x, y, 4 / 5⟩ ^ 2 := by
  have : (⟨View.new ⟨0, 0, 1⟩ 180, [⟨⟨x, y, 4 / 5⟩, 1, 3000⟩], 1, upOpts⟩ : MS).sources = [⟨⟨x, y, 4 / 5⟩, 1, 3000⟩] := by
    unfold MS.sources MS.src MS.threshold
    norm_num [upOpts]
  unfold MS.pwsl2
  rw [this]
  simp [sumBy, upOpts, MS.pos]

/-- the two position indices -/
theorem z_pos : positions true (View.new ⟨0, 0, 1⟩ 180) ⟨-(3 / 5), 0, 4 / 5⟩ <
    positions true (View.new ⟨0, 0, 1⟩ 180) ⟨0, 3 / 5, 4 / 5⟩ := by
  have u1 : (⟨-(3 / 5), 0, 4 / 5⟩ : V3).normSq = 1 := by norm_num [V3.normSq]
  have u2 : (⟨0, 3 / 5, 4 / 5⟩ : V3).normSq = 1 := by norm_num [V3.normSq]
  have hpi := pi_pos
  have hs0 := acos_small
  unfold positions View.degrees
  rw [Geo.norm_of_unit u1, Geo.norm_of_unit u2, z_radians, z_radians, new_w2v (by simp [V3.zero]),
    new_w2v (by simp [V3.zero]), fwd_z, fwd_z]
  have t1 : tauOf ⟨-(3 / 5), 0, 4 / 5⟩ = some 90 := by
    unfold tauOf tau
    norm_num
    field_simp
    norm_num
  have t2 : tauOf ⟨0, 3 / 5, 4 / 5⟩ = some 0 := by
    unfold tauOf tau
    have h : √((0 : ℝ) ^ 2 + (3 / 5) ^ 2 + 0 ^ 2) = 3 / 5 := by
      rw [show (0 : ℝ) ^ 2 + (3 / 5) ^ 2 + 0 ^ 2 = (3 / 5) ^ 2 by norm_num]
      exact sqrt_sq (by norm_num)
    simp only
    rw [h]
    norm_num
  have s1 : sigmaOf ⟨-(3 / 5), 0, 4 / 5⟩ (arccos (4 / 5) * 180 / π) = arccos (4 / 5) * 180 / π := by simp [sigmaOf]
  have s2 : sigmaOf ⟨0, 3 / 5, 4 / 5⟩ (arccos (4 / 5) * 180 / π) = arccos (4 / 5) * 180 / π := by
    unfold sigmaOf; norm_num
  unfold positionsV
  rw [t1, t2, s1, s2]
  have hsig0 : 0 < arccos (4 / 5) * 180 / π := by have := hs0.1; positivity
  have hsig1 : arccos (4 / 5) * 180 / π < 45 := by
    rw [div_lt_iff₀ hpi]; linarith [hs0.2]
  generalize arccos (4 / 5) * 180 / π = σ at *
  have hz : ¬ (4 / 5 : ℝ) < 0 := by norm_num
  simp only [hz, if_true, if_false, Option.elim]
  have hlt : pidxGuth σ 90 < pidxGuth σ 0 := by
    unfold pidxGuth
    apply exp_lt_exp.2
    have := exp_pos (-2 * 90 / 9 : ℝ)
    have e0 : exp (-2 * 0 / 9 : ℝ) = 1 := by norm_num
    rw [e0]
    generalize exp (-2 * 90 / 9 : ℝ) = w at *
    norm_num
    nlinarith
  have h16 : pidxGuth σ 90 < 16 := by
    have : pidxGuth σ 90 ≤ exp 1 := by
      unfold pidxGuth
      apply exp_le_exp.2
      have := exp_pos (-2 * 90 / 9 : ℝ)
      generalize exp (-2 * 90 / 9 : ℝ) = w at *
      norm_num
      nlinarith
    have := exp_one_lt_d9
    linarith
  rw [min_eq_right h16.le]
  exact lt_min h16 hlt

/-- **C171** fails for a view straight up: the position index of a source changes with the compass -/
theorem C171_refuted : ¬ C171_statement := by
  intro h
  have hT : quarter.v ⟨0, 0, 1⟩ = ⟨0, 0, 1⟩ := by simp [Turn.v, quarter]
  obtain ⟨s', h1, h2⟩ := h quarter ⟨0, 0, 1⟩ 180 upOpts [overhead] 0 _ (by simp [V3.zero])
    (z_build (x := 0) (y := 3 / 5) (by norm_num) 0)
  rw [hT, List.map_singleton, overhead_turn, z_build (by norm_num)] at h1
  have h3 := h2 "pwsl2"
  rw [← Option.some.inj h1] at h3
  have e : ∀ s : MS, msAttr s "pwsl2" = .ok s.pwsl2 := fun s => by simp [msAttr]
  rw [e, e, Except.ok.injEq, z_pwsl2, z_pwsl2] at h3
  have hlt := z_pos
  have h0 := (C73_range (View.new ⟨0, 0, 1⟩ 180) ⟨-(3 / 5), 0, 4 / 5⟩).1.1
  generalize positions true (View.new ⟨0, 0, 1⟩ 180) ⟨-(3 / 5), 0, 4 / 5⟩ = a at *
  generalize positions true (View.new ⟨0, 0, 1⟩ 180) ⟨0, 3 / 5, 4 / 5⟩ = b at *
  have ha : a ^ 2 ≠ 0 := by positivity
  have hb : b ^ 2 ≠ 0 := by have : 0 < b := by linarith
                            positivity
  rw [div_eq_div_iff ha hb] at h3
  nlinarith

-- a turn of a level view by a third, with a ray outside the edge
example : Sloped ⟨0, 1, 0⟩ := by
  refine ⟨by simp [V3.zero], ?_⟩
  rw [Geo.norm_of_unit y_unit]
  norm_num
  constructor <;> linarith [pi_gt_three]

-- a scene with a bright ray across the edge of the view
example : strays yView oneBright = [0] ∧ Steady yView oneBright := by
  refine ⟨oneBright_strays, fun i hi => ?_⟩
  rw [oneBright_strays] at hi
  rw [List.mem_singleton.1 hi, y_dxyz]
  have hn : nv oneBright 0 = ⟨1, 0, 0⟩ := by
    unfold nv raw oneBright
    simp only [List.getD_cons_zero]
    exact Geo.norm_of_unit x_unit
  have e : cross (nv oneBright 0) ⟨0, 1, 0⟩ = ⟨0, 0, 1⟩ := by rw [hn]; simp [cross]
  rw [e]
  exact clear_example.2

end Verif.Metric
