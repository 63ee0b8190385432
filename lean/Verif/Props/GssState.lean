import Verif.Model.Gss
import Verif.Props.Pool
import Verif.Props.ViewHeader
import Verif.Props.GssResp

/-! C79, C103 (geometry and view of an instance), C96 (dark images), C97 (constructor), C98 (many images). -/

namespace Verif.Gss
open Verif.Geo Verif.Map Verif.Py Real

/-! ### C79 -/

/-- the pixel geometry of `s` is that of the view `v` at resolution `r` -/
structure GeoOf (s : St) (v : View) (r : ℕ) : Prop where
  vecs : s.vecs = raysOf v r
  omega : s.omega = omegaOf v r
  mask : s.mask = maskOf v r
  ctheta : s.ctheta = cthetaOf v r
  pp : s.pp = r / (60 * v.va)
  sigma : s.sigma = sigmaOf v r

/-- **C79** after any history the geometry is that of the current view and the current image -/
def C79_statement : Prop :=
  ∀ (v : View) (ops : List Op) (p : Pic), (run (start v) ops).lum = some p →
    GeoOf (run (start v) ops) (run (start v) ops).vm p.rows

/-- the only fields `setEcc` changes -/
theorem setEcc_fst (s : St) (p : Pic) : ∃ e, (setEcc s p).1 = { s with ecc := e } := by
  unfold setEcc
  split_ifs
  all_goals first | exact ⟨s.ecc, rfl⟩ | exact ⟨_, rfl⟩

/-- an image every camera produces: some pixels, as many rows as columns -/
def Square (p : Pic) : Prop := 0 < p.rows ∧ p.cols = p.rows

/-- what is known about an instance that has only been given square images: `g` is the view of its geometry -/
structure Inv (s : St) (c g : View) (r : ℕ) : Prop where
  vm : s.vm = c
  res : s.res = r
  gres : s.gres = r
  lum : (r = 0 ∧ s.lum = none) ∨ ∃ p, s.lum = some p ∧ p.rows = r ∧ Square p
  geo : r ≠ 0 → GeoOf s g r

theorem load_inv {s : St} {c g : View} {r : ℕ} (h : Inv s c g r) {p : Pic} (hp : Square p) :
    Inv (load s p).1 c (if p.rows = r then g else c) p.rows := by
  unfold load
  by_cases hr : p.rows = r
  · rw [if_neg (by rw [h.res, hr]; simp), if_pos hr]
    obtain ⟨e, he⟩ := setEcc_fst { s with lum := some p } p
    rw [he]
    have g0 := h.geo (by rw [← hr]; exact hp.1.ne')
    rw [← hr] at g0
    exact ⟨h.vm, by rw [hr]; exact h.res, by rw [hr]; exact h.gres, Or.inr ⟨p, rfl, rfl, hp⟩, fun _ =>
      ⟨g0.vecs, g0.omega, g0.mask, g0.ctheta, g0.pp, g0.sigma⟩⟩
  · rw [if_pos (by rw [h.res]; exact fun e => hr e.symm), if_neg (by rw [hp.2]; simp), if_neg hr]
    obtain ⟨e, he⟩ := setEcc_fst (geoB (geoA { s with lum := some p } p.rows) p.rows) p
    rw [he]
    rw [← h.vm]
    exact ⟨rfl, rfl, rfl, Or.inr ⟨p, rfl, rfl, hp⟩, fun _ => ⟨rfl, rfl, rfl, rfl, rfl, rfl⟩⟩

theorem start_inv (v : View) : Inv (start v) v v 0 := ⟨rfl, rfl, rfl, Or.inl ⟨rfl, rfl⟩, fun h => absurd rfl h⟩

/-- spec of C103: current view, size of the last image, and the view in force when an image of a new size came in -/
def track : View × ℕ × View → List Op → View × ℕ × View
  | t, [] => t
  | (_, r, g), .view v :: ops => track (v, r, g) ops
  | (c, r, g), .image p :: ops => track (c, p.rows, if p.rows = r then g else c) ops

/-- every image of the history is square -/
def AllSquare (ops : List Op) : Prop := ∀ p, Op.image p ∈ ops → Square p

theorem run_inv (ops : List Op) (hsq : AllSquare ops) : ∀ (s : St) (c g : View) (r : ℕ), Inv s c g r →
    Inv (run s ops) (track (c, r, g) ops).1 (track (c, r, g) ops).2.2 (track (c, r, g) ops).2.1 := by
  induction ops with
  | nil => intro s c g r h; exact h
  | cons o ops ih =>
    intro s c g r h
    have hs : AllSquare ops := fun p hp => hsq p (List.mem_cons_of_mem _ hp)
    cases o with
    | view v =>
      have : Inv (setVm s v) v g r :=
        ⟨rfl, h.res, h.gres, h.lum, fun hr => ⟨(h.geo hr).vecs, (h.geo hr).omega, (h.geo hr).mask, (h.geo hr).ctheta,
          (h.geo hr).pp, (h.geo hr).sigma⟩⟩
      exact ih hs _ _ _ _ this
    | image p => exact ih hs _ _ _ _ (load_inv h (hsq p (by simp)))

/-- **C103** with square images the geometry is, after every history, that of the view in force when an image of a new
size was last loaded -/
theorem C103_geometry (v : View) (ops : List Op) (hsq : AllSquare ops) (p : Pic)
    (hp : (run (start v) ops).lum = some p) :
    GeoOf (run (start v) ops) (track (v, 0, v) ops).2.2 p.rows ∧ (run (start v) ops).vm = (track (v, 0, v) ops).1 ∧
    p.rows = (track (v, 0, v) ops).2.1 := by
  have h := run_inv ops hsq _ _ _ _ (start_inv v)
  rcases h.lum with ⟨-, h0⟩ | ⟨q, hq, hr, hs⟩
  · rw [h0] at hp; exact absurd hp (by simp)
  · rw [hp] at hq
    have e : p = q := Option.some.inj hq
    subst e
    refine ⟨?_, h.vm, hr⟩
    rw [hr]
    exact h.geo (by rw [← hr]; exact hs.1.ne')

theorem track_images (c : View) (ps : List Pic) : ∀ r, (track (c, r, c) (ps.map Op.image)).2.2 = c ∧
    (track (c, r, c) (ps.map Op.image)).1 = c := by
  induction ps with
  | nil => intro r; exact ⟨rfl, rfl⟩
  | cons p ps ih =>
    intro r
    show (track (c, p.rows, if p.rows = r then c else c) _).2.2 = c ∧ _
    rw [show (if p.rows = r then c else c) = c by split_ifs <;> rfl]
    refine ⟨(ih _).1, ?_⟩
    show (track (c, p.rows, if p.rows = r then c else c) _).1 = c
    rw [show (if p.rows = r then c else c) = c by split_ifs <;> rfl]
    exact (ih _).2

/-- **C79** for every sequence of square images as long as the view is not changed. Missing for the full claim: view
changes and images that are not square (`C79_refuted`, `C79_images_refuted`). -/
theorem C79_partial (v : View) (ps : List Pic) (hsq : ∀ p ∈ ps, Square p) (p : Pic)
    (hp : (run (start v) (ps.map .image)).lum = some p) :
    GeoOf (run (start v) (ps.map .image)) (run (start v) (ps.map .image)).vm p.rows := by
  have hs : AllSquare (ps.map .image) := by
    intro q hq
    obtain ⟨x, hx, e⟩ := List.mem_map.mp hq
    cases e
    exact hsq q hx
  obtain ⟨h1, h2, -⟩ := C103_geometry v _ hs p hp
  rw [h2, (track_images v ps 0).2]
  rwa [(track_images v ps 0).1] at h1

/-- **C79** and from any history of square images a load of another size, or a view change before the first image,
brings the geometry back in step -/
theorem C79_resync_partial (v : View) (ops : List Op) (hsq : AllSquare ops) (p : Pic) (hp : Square p)
    (hne : (run (start v) ops).res ≠ p.rows) :
    GeoOf (run (start v) (ops ++ [.image p])) (run (start v) (ops ++ [.image p])).vm p.rows := by
  have h := run_inv ops hsq _ _ _ _ (start_inv v)
  have e : run (start v) (ops ++ [.image p]) = (load (run (start v) ops) p).1 := by
    unfold run; rw [List.foldl_append]; rfl
  rw [e]
  have h2 := load_inv h hp
  rw [if_neg (by rw [h.res] at hne; exact fun x => hne x.symm)] at h2
  rw [h2.vm]
  exact h2.geo hp.1.ne'

/-! witnesses -/

noncomputable abbrev plusY : View := View.new ⟨0, 1, 0⟩ 180

theorem plusY_dxyz : plusY.dxyz = ⟨0, 1, 0⟩ := by
  show norm1 _ = _
  rw [norm1_norm (by simp [V3.zero]), norm_of_unit (by norm_num [V3.normSq])]

noncomputable abbrev minusY : View := View.new ⟨0, -1, 0⟩ 180

theorem norm_minusY : Geo.norm ⟨0, -1, 0⟩ = ⟨0, -1, 0⟩ := norm_of_unit (by norm_num [V3.normSq])

theorem minusY_clear : Clear ⟨0, -1, 0⟩ := by
  refine ⟨by simp [V3.zero], Or.inl ?_⟩
  rw [norm_minusY]
  simp only [arccos_zero]
  have := pi_gt_three
  constructor <;> norm_num <;> linarith

theorem minusY_dxyz : minusY.dxyz = ⟨0, -1, 0⟩ := by
  show norm1 _ = _
  rw [norm1_norm (by simp [V3.zero]), norm_minusY]

/-- the middle of the image looks along the view direction -/
theorem ray_centre {d : V3} (h : Clear d) (va : ℝ) : raysOf (View.new d va) 1 0 0 = (View.new d va).dxyz := by
  have e : (View.new d va).centred ((0 : ℝ) + 1 / 2, (0 : ℝ) + 1 / 2) = (0, 0) := by
    unfold View.centred; norm_num
  unfold raysOf View.pixel2ray View.vxy2xyz View.vxy2xyzM pixelCentre
  simp only [Nat.cast_one, div_one, Nat.cast_zero]
  rw [e, ← (C50_look_partial d h va).2.1]
  congr 1
  unfold polar2view rad2
  simp

def onePx : Pic := ⟨1, 1, fun _ _ => 1⟩

theorem onePx_square : Square onePx := ⟨one_pos, rfl⟩

/-- changing the view after an image of the same size has been loaded leaves the old rays in place -/
theorem C79_refuted : ¬ C79_statement := by
  intro h
  have hs : AllSquare [.image onePx, .view minusY] := by
    intro p hp
    simp only [List.mem_cons, Op.image.injEq, reduceCtorEq, List.not_mem_nil, or_false] at hp
    rw [hp]; exact onePx_square
  have hi := run_inv _ hs _ _ _ _ (start_inv plusY)
  have hl : (run (start plusY) [.image onePx, .view minusY]).lum = some onePx := by
    rcases hi.lum with ⟨h0, -⟩ | ⟨q, hq, -, -⟩
    · exact absurd h0 (by simp [track, onePx])
    · rw [hq]
      obtain ⟨e, he⟩ := setEcc_fst (geoB (geoA { start plusY with lum := some onePx } 1) 1) onePx
      have : (run (start plusY) [.image onePx, .view minusY]).lum = some onePx := by
        show (setVm (load (start plusY) onePx).1 minusY).lum = some onePx
        unfold load
        rw [if_pos (by simp [start, onePx]), if_neg (by simp [onePx])]
        show (setEcc (geoB (geoA { start plusY with lum := some onePx } 1) 1) onePx).1.lum = _
        rw [he]; rfl
      rw [← hq, this]
  have h1 := h plusY _ onePx hl
  obtain ⟨h2, h3, -⟩ := C103_geometry plusY _ hs onePx hl
  have e1 := congrFun (congrFun h1.vecs 0) 0
  have e2 := congrFun (congrFun h2.vecs 0) 0
  rw [e2, h3] at e1
  have t1 : (track (plusY, 0, plusY) [.image onePx, .view minusY]).2.2 = plusY := by
    simp [track, onePx]
  have t2 : (track (plusY, 0, plusY) [.image onePx, .view minusY]).1 = minusY := by
    simp [track]
  rw [t1, t2, show onePx.rows = 1 from rfl, ray_centre clear_example.1, ray_centre minusY_clear, minusY_dxyz,
    plusY_dxyz] at e1
  have := congrArg V3.y e1
  norm_num at this

/-! solid angles -/

theorem lagrange (a b : V3) : (cross a b).normSq = a.normSq * b.normSq - a.dot b ^ 2 := by
  unfold cross V3.normSq V3.dot; ring

theorem sub_dot (a b c d : V3) : (a.sub b).dot (c.sub d) = a.dot c - a.dot d - b.dot c + b.dot d := by
  unfold V3.sub V3.dot; ring

theorem normSq_dot (a : V3) : a.normSq = a.dot a := by unfold V3.normSq V3.dot; ring

/-- the solid angle of a pixel can be computed in view space -/
theorem pixel2omega_view {d : V3} (hd : d ≠ V3.zero) (va : ℝ) (r : ℕ) (p : ℝ × ℝ) :
    let P := fun q : ℝ × ℝ => polar2view ((View.new d va).centred q)
    (View.new d va).pixel2omega r p =
      (cross ((P ((p.1 + 1 / 2) / r, p.2 / r)).sub (P ((p.1 - 1 / 2) / r, p.2 / r)))
        ((P (p.1 / r, (p.2 + 1 / 2) / r)).sub (P (p.1 / r, (p.2 - 1 / 2) / r)))).len := by
  intro P
  have iso : ∀ a b, ((View.new d va).v2w a).dot ((View.new d va).v2w b) = a.dot b := fun a b =>
    (C50_isometry d hd va a b).2.2.2
  unfold View.pixel2omega V3.len
  congr 1
  rw [lagrange, lagrange]
  simp only [normSq_dot, sub_dot]
  simp only [View.vxy2xyz, View.vxy2xyzM, iso]
  rfl

theorem omega_one {d : V3} (h : Clear d) : omegaOf (View.new d 180) 1 0 0 = 4 := by
  have hcf : (View.new d 180).cf = 1 := by
    show chordFactor (vangle 180) = 1
    rw [show vangle 180 = 180 by unfold vangle; norm_num, cf_180]
  have hva : (View.new d 180).va = 180 := by show vangle 180 = 180; unfold vangle; norm_num
  have hm : maskOf (View.new d 180) 1 0 0 := by
    unfold maskOf View.inView View.radians Geo.radians Geo.ctheta
    rw [ray_centre h, ← normSq_dot, (C50_look_partial d h 180).2.2, hcf, hva]
    rw [clip1_eq (by norm_num) le_rfl, arccos_one]
    have := pi_pos
    norm_num
    exact this
  have hc : ∀ x y : ℝ, (View.new d 180).centred (x, y) = (-(x - 1 / 2), y - 1 / 2) := fun x y => by
    unfold View.centred; rw [hcf, hva]; norm_num
  have hp : ∀ x y : ℝ, x ^ 2 + y ^ 2 = (1 / 2) ^ 2 → polar2view (x, y) = ⟨2 * x, 2 * y, 0⟩ := fun x y hxy => by
    have : rad2 (x, y) = 1 / 2 := by unfold rad2; simp only; rw [hxy, sqrt_sq (by norm_num)]
    unfold polar2view polFactor
    rw [this, show π * (1 / 2) = π / 2 by ring, cos_pi_div_two]
    norm_num
    constructor <;> ring
  rw [omegaOf, if_pos hm, pixel2omega_view h.1]
  simp only [pixelCentre, hc, Nat.cast_one, Nat.cast_zero]
  rw [hp _ _ (by norm_num), hp _ _ (by norm_num), hp _ _ (by norm_num), hp _ _ (by norm_num)]
  unfold cross V3.len V3.normSq V3.sub
  norm_num
  rw [show (16 : ℝ) = 4 ^ 2 by norm_num, sqrt_sq (by norm_num)]

/-- loading one white pixel works and gives the smallest eccentricity -/
theorem load_onePx {d : V3} (h : Clear d) : (load (start (View.new d 180)) onePx).2 = none := by
  have hw : sumPx onePx.rows (wgt (geoB (geoA { start (View.new d 180) with lum := some onePx } 1) 1) onePx) = 4 := by
    show sumPx 1 _ = 4
    unfold sumPx
    rw [Finset.sum_range_one, Finset.sum_range_one]
    unfold wgt
    rw [if_pos (show onePx.cols = 1 from rfl),
      if_pos (show (geoB (geoA { start (View.new d 180) with lum := some onePx } 1) 1).gres = 1 from rfl)]
    show onePx.px 0 _ ^ 4 * omegaOf (View.new d 180) 1 0 0 = 4
    rw [omega_one h]
    simp [onePx]
  unfold load
  rw [if_pos (by simp [start, onePx]), if_neg (by simp [onePx])]
  show (setEcc (geoB (geoA { start (View.new d 180) with lum := some onePx } 1) 1) onePx).2 = none
  unfold setEcc
  rw [if_neg, if_neg, if_neg]
  · rw [hw]; norm_num
  · rw [not_not]; exact ⟨Or.inl rfl, Or.inl rfl⟩
  · rw [not_not]; exact ⟨Or.inl rfl, Or.inl rfl⟩

/-! ### C96 -/

theorem omega_nonneg (v : View) (r i j : ℕ) : 0 ≤ omegaOf v r i j := by
  unfold omegaOf View.pixel2omega V3.len
  split_ifs
  · exact sqrt_nonneg _
  · exact le_rfl

theorem sumPx_zero {r : ℕ} {f : ℕ → ℕ → ℝ} (h : ∀ i j, 0 ≤ f i j) :
    sumPx r f = 0 ↔ ∀ i < r, ∀ j < r, f i j = 0 := by
  unfold sumPx
  rw [Finset.sum_eq_zero_iff_of_nonneg fun i _ => Finset.sum_nonneg fun j _ => h i j]
  simp only [Finset.mem_range]
  constructor
  · intro hs i hi j hj
    exact (Finset.sum_eq_zero_iff_of_nonneg fun j _ => h i j).mp (hs i hi) j (Finset.mem_range.mpr hj)
  · intro hs i hi
    exact Finset.sum_eq_zero fun j hj => hs i hi j (Finset.mem_range.mp hj)

/-- **C96** every square image can be loaded -/
def C96_statement : Prop := ∀ (v : View) (p : Pic), Square p → (load (start v) p).2 = none

theorem load_start {v : View} {p : Pic} (hp : Square p) :
    load (start v) p = setEcc (geoB (geoA { start v with lum := some p } p.rows) p.rows) p := by
  unfold load
  rw [if_pos (by show (0 : ℕ) ≠ p.rows; exact hp.1.ne), if_neg (by rw [hp.2]; simp)]

theorem setEcc_err {s : St} {p : Pic} (hp : Square p) (hg : s.gres = p.rows) (ho : ∀ i j, 0 ≤ s.omega i j) :
    ((setEcc s p).2 = some .ZeroDivisionError ↔
      ∀ i < p.rows, ∀ j < p.rows, p.px i (if p.cols = 1 then 0 else j) = 0 ∨
        (if s.gres = 1 then s.omega 0 0 else s.omega i j) = 0) ∧
    ((setEcc s p).2 = none ∨ (setEcc s p).2 = some .ZeroDivisionError) := by
  have h1 : ¬ ¬ (bcast p.rows s.gres ∧ bcast p.cols s.gres) := by
    rw [not_not]; exact ⟨Or.inl hg.symm, Or.inl (hp.2.trans hg.symm)⟩
  have h2 : ¬ ¬ shapesOk s p := by rw [not_not]; exact ⟨Or.inl hg, Or.inl hp.2⟩
  have hw : ∀ i j, 0 ≤ wgt s p i j := by
    intro i j
    unfold wgt
    refine mul_nonneg (by positivity) ?_
    split_ifs
    · exact ho 0 0
    · exact ho i j
  have hz := sumPx_zero (r := p.rows) hw
  have hz' : (∀ i < p.rows, ∀ j < p.rows, wgt s p i j = 0) ↔ ∀ i < p.rows, ∀ j < p.rows,
      p.px i (if p.cols = 1 then 0 else j) = 0 ∨ (if s.gres = 1 then s.omega 0 0 else s.omega i j) = 0 := by
    refine forall_congr' fun i => forall_congr' fun _ => forall_congr' fun j => forall_congr' fun _ => ?_
    unfold wgt
    rw [mul_eq_zero, pow_eq_zero_iff (by norm_num)]
  unfold setEcc
  rw [if_neg h1, if_neg h2]
  by_cases h : sumPx p.rows (wgt s p) = 0
  · rw [if_pos h]
    exact ⟨⟨fun _ => hz'.mp (hz.mp h), fun _ => rfl⟩, Or.inr rfl⟩
  · rw [if_neg h]
    refine ⟨⟨fun e => absurd e (by simp), fun e => absurd (hz.mpr (hz'.mpr e)) h⟩, Or.inl rfl⟩

theorem single_index {p : Pic} (hp : Square p) {j : ℕ} (hj : j < p.rows) : (if p.cols = 1 then 0 else j) = j := by
  split_ifs with h
  · rw [hp.2] at h; omega
  · rfl

/-- **C96** exactly: loading a square image raises ZeroDivisionError when every pixel of nonzero solid angle in the view
is black, and works otherwise -/
theorem C96_exact (v : View) (p : Pic) (hp : Square p) :
    ((load (start v) p).2 = some .ZeroDivisionError ↔
      ∀ i < p.rows, ∀ j < p.rows, p.px i j = 0 ∨ omegaOf v p.rows i j = 0) ∧
    ((load (start v) p).2 = none ∨ (load (start v) p).2 = some .ZeroDivisionError) := by
  rw [load_start hp]
  obtain ⟨h1, h2⟩ := setEcc_err (s := geoB (geoA { start v with lum := some p } p.rows) p.rows) hp rfl
    (omega_nonneg v p.rows)
  refine ⟨h1.trans ?_, h2⟩
  refine forall_congr' fun i => forall_congr' fun hi => forall_congr' fun j => forall_congr' fun hj => ?_
  rw [single_index hp hj]
  show p.px i j = 0 ∨ (if p.rows = 1 then omegaOf v p.rows 0 0 else omegaOf v p.rows i j) = 0 ↔ _
  by_cases hr : p.rows = 1
  · rw [if_pos hr]
    rw [hr] at hi hj
    obtain rfl : i = 0 := by omega
    obtain rfl : j = 0 := by omega
    rfl
  · rw [if_neg hr]

/-- **C96** holds for images with light in the view -/
theorem C96_partial (v : View) (p : Pic) (hp : Square p) {i j : ℕ} (hi : i < p.rows) (hj : j < p.rows)
    (h1 : p.px i j ≠ 0) (h2 : omegaOf v p.rows i j ≠ 0) : (load (start v) p).2 = none := by
  obtain ⟨h, h'⟩ := C96_exact v p hp
  rcases h' with h' | h'
  · exact h'
  · rcases h.mp h' i hi j hj with e | e
    · exact absurd e h1
    · exact absurd e h2

example : (load (start plusY) onePx).2 = none :=
  C96_partial plusY onePx onePx_square (i := 0) (j := 0) one_pos one_pos (by simp [onePx])
    (by rw [show onePx.rows = 1 from rfl, omega_one clear_example.1]; norm_num)

theorem C96_refuted : ¬ C96_statement := by
  intro h
  have h1 := h plusY ⟨1, 1, fun _ _ => 0⟩ ⟨one_pos, rfl⟩
  rw [(C96_exact plusY ⟨1, 1, fun _ _ => 0⟩ ⟨one_pos, rfl⟩).1.mpr (fun _ _ _ _ => Or.inl rfl)] at h1
  exact absurd h1 (by simp)

/-- **C101** the eccentricity of a loaded image is within the scale -/
theorem C101_ecc (v : View) (p : Pic) (hp : Square p) (h : (load (start v) p).2 = none) :
    emin ≤ (load (start v) p).1.ecc ∧ (load (start v) p).1.ecc ≤ emax := by
  rw [load_start hp] at h ⊢
  set s := geoB (geoA { start v with lum := some p } p.rows) p.rows with hs
  have h1 : ¬ ¬ (bcast p.rows s.gres ∧ bcast p.cols s.gres) := by
    rw [not_not]; exact ⟨Or.inl rfl, Or.inl hp.2⟩
  have h2 : ¬ ¬ shapesOk s p := by rw [not_not]; exact ⟨Or.inl rfl, Or.inl hp.2⟩
  have h3 : sumPx p.rows (wgt s p) ≠ 0 := by
    intro h0
    unfold setEcc at h
    rw [if_neg h1, if_neg h2, if_pos h0] at h
    exact absurd h (by simp)
  unfold setEcc
  rw [if_neg h1, if_neg h2, if_neg h3]
  show emin ≤ sumPx p.rows (fun i j => s.sigma i j * wgt s p i j) / sumPx p.rows (wgt s p) ∧ _
  have hw : ∀ i j, 0 ≤ wgt s p i j := by
    intro i j
    unfold wgt
    refine mul_nonneg (by positivity) ?_
    split_ifs
    · exact omega_nonneg v p.rows 0 0
    · exact omega_nonneg v p.rows i j
  have hσ : ∀ i j, emin ≤ s.sigma i j ∧ s.sigma i j ≤ emax := fun i j => C78_width _
  have hpos : 0 < sumPx p.rows (wgt s p) := lt_of_le_of_ne
    (Finset.sum_nonneg fun i _ => Finset.sum_nonneg fun j _ => hw i j) h3.symm
  refine ⟨?_, ?_⟩
  · rw [le_div_iff₀ hpos]
    unfold sumPx
    rw [Finset.mul_sum]
    refine Finset.sum_le_sum fun i _ => ?_
    rw [Finset.mul_sum]
    exact Finset.sum_le_sum fun j _ => mul_le_mul_of_nonneg_right (hσ i j).1 (hw i j)
  · show sumPx p.rows (fun i j => s.sigma i j * wgt s p i j) / sumPx p.rows (wgt s p) ≤ emax
    rw [div_le_iff₀ hpos]
    unfold sumPx
    rw [Finset.mul_sum]
    refine Finset.sum_le_sum fun i _ => ?_
    rw [Finset.mul_sum]
    exact Finset.sum_le_sum fun j _ => mul_le_mul_of_nonneg_right (hσ i j).2 (hw i j)

/-! ### C79 without view changes -/

/-- **C79** restricted to images only, and to images that load without an exception after whatever came before -/
def C79_images_statement : Prop :=
  ∀ (v : View) (ps : List Pic) (p : Pic), Square p → (load (run (start v) (ps.map .image)) p).2 = none →
    GeoOf (load (run (start v) (ps.map .image)) p).1 v p.rows

def white (n m : ℕ) : Pic := ⟨n, m, fun _ _ => 1⟩

theorem ray_corner : raysOf plusY 2 0 0 ≠ plusY.dxyz := by
  intro h
  have e := C53_equiangular_partial ⟨0, 1, 0⟩ clear_example.1 180 (by norm_num) le_rfl (1 / 4, 1 / 4) (by norm_num)
    (by norm_num) (by norm_num) (by norm_num)
  have hq : plusY.vxy2xyz (1 / 4, 1 / 4) = plusY.dxyz := by
    rw [← h]
    unfold raysOf View.pixel2ray pixelCentre
    norm_num
  rw [hq] at e
  have h0 : plusY.radians plusY.dxyz = 0 := by
    unfold View.radians Geo.radians Geo.ctheta
    rw [← normSq_dot, (C50_look_partial _ clear_example.1 180).2.2, clip1_eq (by norm_num) le_rfl, arccos_one]
  rw [h0, cf_180] at e
  have hp := pi_pos
  have : 0 < √((1 / 4 - 1 / 2 : ℝ) ^ 2 + (1 / 4 - 1 / 2) ^ 2) * (1 * 180 * π / 180) := by positivity
  simp only at e
  linarith

/-- a picture of one row that fails to load leaves its one ray behind: the next picture of the old size loads without
complaint and is evaluated with it -/
theorem C79_images_refuted : ¬ C79_images_statement := by
  intro h
  set s1 := (load (start plusY) (white 2 2)).1 with hs1
  have i1 : Inv s1 plusY plusY 2 := by
    have := load_inv (start_inv plusY) (p := white 2 2) ⟨two_pos, rfl⟩
    rwa [show (white 2 2).rows = 2 from rfl, if_neg (by norm_num)] at this
  set s2 := (load s1 (white 1 5)).1 with hs2
  have e2 : s2 = geoA { s1 with lum := some (white 1 5) } 1 := by
    rw [hs2]; unfold load
    rw [if_pos (by rw [i1.res]; simp [white]), if_pos (by simp [white])]
    rfl
  have hrun : run (start plusY) ([white 2 2, white 1 5].map .image) = s2 := rfl
  have hld : load s2 (white 2 2) = setEcc { s2 with lum := some (white 2 2) } (white 2 2) := by
    unfold load
    rw [if_neg]
    rw [e2]
    show ¬ s1.res ≠ 2
    rw [i1.res]; simp
  have hg : ({ s2 with lum := some (white 2 2) } : St).gres = 1 := by rw [e2]; rfl
  have ho : ({ s2 with lum := some (white 2 2) } : St).omega 0 0 = 4 := by
    rw [e2]
    show omegaOf s1.vm 1 0 0 = 4
    rw [i1.vm, omega_one clear_example.1]
  have hw : ∀ i j, wgt { s2 with lum := some (white 2 2) } (white 2 2) i j = 4 := by
    intro i j
    unfold wgt
    rw [if_pos hg, ho]
    simp [white]
  have hok : (load s2 (white 2 2)).2 = none := by
    rw [hld]
    unfold setEcc
    rw [if_neg, if_neg, if_neg]
    · simp only [sumPx, hw]; norm_num [white]
    · rw [not_not]; exact ⟨Or.inr hg, Or.inl rfl⟩
    · rw [not_not]; exact ⟨Or.inr (Or.inr hg), Or.inr (Or.inr hg)⟩
  have hfin := h plusY [white 2 2, white 1 5] (white 2 2) ⟨two_pos, rfl⟩ (by rw [hrun]; exact hok)
  rw [hrun, hld] at hfin
  obtain ⟨e, he⟩ := setEcc_fst { s2 with lum := some (white 2 2) } (white 2 2)
  rw [he] at hfin
  have hv := congrFun (congrFun hfin.vecs 0) 0
  have : s2.vecs 0 0 = plusY.dxyz := by
    rw [e2]
    show raysOf s1.vm 1 0 0 = _
    rw [i1.vm, ray_centre clear_example.1]
  rw [show ({ s2 with lum := some (white 2 2), ecc := e } : St).vecs 0 0 = s2.vecs 0 0 from rfl, this] at hv
  exact ray_corner hv.symm

/-! ### C98 -/

/-- what `compute` can look at -/
def seen (s : St) (e : Option ℝ) : St × Option ℝ := (s, e)

/-- an instance in step with its view loads a square image exactly as a new instance does -/
theorem load_fresh {s : St} {v : View} {r : ℕ} (h : Inv s v v r) {p : Pic} (hp : Square p) :
    (load s p).2 = (load (start v) p).2 ∧ ((load s p).2 = none → (load s p).1 = (load (start v) p).1) := by
  rw [load_start hp]
  by_cases hr : s.res = p.rows
  · have hr' : r = p.rows := by rw [← h.res, hr]
    have g := h.geo (by rw [hr']; exact hp.1.ne')
    rw [hr'] at g
    have e : load s p = setEcc { s with lum := some p } p := by unfold load; rw [if_neg (by simp [hr])]
    have e2 : ({ s with lum := some p } : St) =
        { geoB (geoA { start v with lum := some p } p.rows) p.rows with ecc := s.ecc } := by
      have h1 := h.vm
      have h2 := h.gres
      obtain ⟨a, b, c, d, f, k⟩ := g
      cases s
      simp only [geoA, geoB, start] at *
      subst h1 hr a b c d f k
      rw [hr'] at h2
      subst h2
      rfl
    rw [e, e2]
    set t := geoB (geoA { start v with lum := some p } p.rows) p.rows
    unfold setEcc shapesOk wgt
    dsimp only
    split_ifs <;> simp
  · have e : load s p = setEcc (geoB (geoA { s with lum := some p } p.rows) p.rows) p := by
      unfold load; rw [if_pos hr, if_neg (by rw [hp.2]; simp)]
    have e2 : geoB (geoA { s with lum := some p } p.rows) p.rows =
        { geoB (geoA { start v with lum := some p } p.rows) p.rows with ecc := s.ecc } := by
      have h1 := h.vm
      cases s
      simp only [geoA, geoB, start] at *
      subst h1
      rfl
    rw [e, e2]
    set t := geoB (geoA { start v with lum := some p } p.rows) p.rows
    unfold setEcc shapesOk wgt
    dsimp only
    split_ifs <;> simp

theorem process_fresh {R : Type} (score : St → Option ℝ → R) {s : St} {v : View} {r : ℕ} (h : Inv s v v r)
    (img : Except PyErr Pic) (hp : ∀ p, img = .ok p → Square p) (e : Option ℝ) :
    processGss score s img e = processGss score (start v) img e := by
  cases img with
  | error x => rfl
  | ok p =>
    obtain ⟨h1, h2⟩ := load_fresh h (hp p rfl)
    unfold processGss
    simp only
    rw [← h1]
    cases hx : (load s p).2 with
    | some x => rfl
    | none => simp only; rw [h2 hx]

theorem callArgs_ok {R : Type} (score : St → Option ℝ → R) (s : St) (imgs : List (Except PyErr Pic))
    (ills : Option (List ℝ)) : ∀ a ∈ gssArgs imgs ills, ∃ i e, a = .pair i e ∧
      (gssSetup score s).callArgs a = .ok [.img i, .illum e, .ins s] := by
  intro a ha
  unfold gssArgs at ha
  cases ills with
  | some l =>
    obtain ⟨x, -, rfl⟩ := List.mem_map.mp ha
    exact ⟨_, _, rfl, rfl⟩
  | none =>
    obtain ⟨x, -, rfl⟩ := List.mem_map.mp ha
    exact ⟨_, _, rfl, rfl⟩

theorem seq_congr {R : Type} (score : St → Option ℝ → R) {s : St} {v : View} {r : ℕ} (h : Inv s v v r)
    (args : List Arg) (ha : ∀ a ∈ args, ∃ i e, a = Arg.pair i e ∧ ∀ p, i = .ok p → Square p) :
    ∀ acc, Pool.sequential (gssSetup score s) acc args = Pool.sequential (gssSetup score (start v)) acc args := by
  induction args with
  | nil => intro acc; rfl
  | cons a args ih =>
    intro acc
    obtain ⟨i, e, rfl, hp⟩ := ha a (by simp)
    have ih' := ih fun a hx => ha a (List.mem_cons_of_mem _ hx)
    have e1 : ∀ t, (gssSetup score t).callArgs (.pair i e) = .ok [.img i, .illum e, .ins t] := fun _ => rfl
    have e2 : ∀ t, (gssSetup score t).func [.img i, .illum e, .ins t] = processGss score t i e := fun _ => rfl
    simp only [Pool.sequential, e1]
    have e3 : ∀ t u, (gssSetup score t).func [.img i, .illum e, .ins u] = processGss score u i e := fun _ _ => rfl
    rw [e3, e3, process_fresh score h i hp e]
    cases processGss score (start v) i e with
    | error x => rfl
    | ok y => exact ih' _

/-- **C98** for every worker count and schedule the result of scoring square images is that of scoring them one after
the other, each on a new instance with the view of the first image -/
theorem C98_partial {R : Type} (score : St → Option ℝ → R) (v : View) (first : Pic) (hf : Square first)
    (w : Pool.Workers) (nproc : ℤ) (hn : 1 ≤ nproc) (ve : PyErr) (imgs : List (Except PyErr Pic)) (ills : Option (List ℝ))
    (hsq : ∀ p, .ok p ∈ imgs → Square p) (o : Except PyErr (List R))
    (ho : Pool.Outcome (gssSetup score (load (start v) first).1) w nproc ve (gssArgs imgs ills) o) :
    o = Pool.sequential (gssSetup score (start v)) [] (gssArgs imgs ills) := by
  have hi := load_inv (start_inv v) hf
  have : (if first.rows = 0 then v else v) = v := by split_ifs <;> rfl
  rw [this] at hi
  rw [Pool.C03_outcome_independent_of_mode _ w nproc ve _ hn (fun a ha => by
    obtain ⟨i, e, -, h⟩ := callArgs_ok score (load (start v) first).1 imgs ills a ha
    exact ⟨_, h⟩) o ho]
  refine seq_congr score hi _ (fun a ha => ?_) []
  unfold gssArgs at ha
  cases ills with
  | some l =>
    obtain ⟨x, hx, rfl⟩ := List.mem_map.mp ha
    exact ⟨_, _, rfl, fun p hp => hsq p (by rw [← hp]; exact (List.of_mem_zip hx).1)⟩
  | none =>
    obtain ⟨x, hx, rfl⟩ := List.mem_map.mp ha
    exact ⟨_, _, rfl, fun p hp => hsq p (by rw [← hp]; exact hx)⟩

/-- **C98** a successful call returns one score per pair, in order, each that of its own image on a new instance -/
theorem C98_values_partial {R : Type} (score : St → Option ℝ → R) (v : View) (args : List Arg) :
    ∀ (acc rs : List R), Pool.sequential (gssSetup score (start v)) acc args = .ok rs →
      (∀ a ∈ args, ∃ i e, a = Arg.pair i e) →
      ∃ ys, rs = acc ++ ys ∧ List.Forall₂ (fun a y => ∃ i e, a = Arg.pair i e ∧
        processGss score (start v) i e = .ok y) args ys := by
  induction args with
  | nil =>
    intro acc rs h _
    exact ⟨[], by cases h; simp, .nil⟩
  | cons a args ih =>
    intro acc rs h hp
    obtain ⟨i, e, rfl⟩ := hp a (by simp)
    have e1 : (gssSetup score (start v)).callArgs (.pair i e) = .ok [.img i, .illum e, .ins (start v)] := rfl
    have e2 : (gssSetup score (start v)).func [.img i, .illum e, .ins (start v)] = processGss score (start v) i e := rfl
    simp only [Pool.sequential, e1, e2] at h
    cases hq : processGss score (start v) i e with
    | error x => rw [hq] at h; exact absurd h (by simp)
    | ok y =>
      rw [hq] at h
      obtain ⟨ys, h1, h2⟩ := ih _ _ h fun a ha => hp a (List.mem_cons_of_mem _ ha)
      exact ⟨y :: ys, by rw [h1]; simp, .cons ⟨i, e, rfl, hq⟩ h2⟩

/-- **C98** the two together, in terms of the lists handed to `gss_compute`: a successful call has one score per image,
or per image and illuminance, in the order given -/
theorem C98_order_partial {R : Type} (score : St → Option ℝ → R) (v : View) (first : Pic) (hf : Square first)
    (w : Pool.Workers) (nproc : ℤ) (hn : 1 ≤ nproc) (ve : PyErr) (imgs : List (Except PyErr Pic))
    (hsq : ∀ p, .ok p ∈ imgs → Square p) (rs : List R) :
    (Pool.Outcome (gssSetup score (load (start v) first).1) w nproc ve (gssArgs imgs none) (.ok rs) →
      List.Forall₂ (fun i y => processGss score (start v) i none = .ok y) imgs rs) ∧
    ∀ ills : List ℝ, Pool.Outcome (gssSetup score (load (start v) first).1) w nproc ve (gssArgs imgs (some ills)) (.ok rs) →
      List.Forall₂ (fun (x : Except PyErr Pic × ℝ) y => processGss score (start v) x.1 (some x.2) = .ok y)
        (imgs.zip ills) rs := by
  constructor
  · intro h
    have h1 := (C98_partial score v first hf w nproc hn ve imgs none hsq _ h).symm
    obtain ⟨ys, h2, h3⟩ := C98_values_partial score v _ _ _ h1 fun a ha => by
      obtain ⟨i, e, hx, -⟩ := callArgs_ok score (start v) imgs none a ha
      exact ⟨i, e, hx⟩
    rw [List.nil_append] at h2
    subst h2
    unfold gssArgs at h3
    rw [List.forall₂_map_left_iff] at h3
    refine h3.imp fun i y hy => ?_
    obtain ⟨i', e, hp, hq⟩ := hy
    cases hp
    exact hq
  · intro ills h
    have h1 := (C98_partial score v first hf w nproc hn ve imgs (some ills) hsq _ h).symm
    obtain ⟨ys, h2, h3⟩ := C98_values_partial score v _ _ _ h1 fun a ha => by
      obtain ⟨i, e, hx, -⟩ := callArgs_ok score (start v) imgs (some ills) a ha
      exact ⟨i, e, hx⟩
    rw [List.nil_append] at h2
    subst h2
    unfold gssArgs at h3
    rw [List.forall₂_map_left_iff] at h3
    refine h3.imp fun i y hy => ?_
    obtain ⟨i', e, hp, hq⟩ := hy
    cases hp
    exact hq

/-- **C98** every image is scored in its own view: files have a view and pixels, the instance is made from the first -/
def C98_statement : Prop :=
  ∀ (files : List (View × Pic)) (f : View × Pic), (∀ x ∈ f :: files, Square x.2) →
    ∀ (w : Pool.Workers) (nproc : ℤ) (ve : PyErr) (rs : List (St × Option ℝ)), 1 ≤ nproc →
      Pool.Outcome (gssSetup seen (load (start f.1) f.2).1) w nproc ve
        (gssArgs ((f :: files).map fun x => .ok x.2) none) (.ok rs) →
      List.Forall₂ (fun (x : View × Pic) r => processGss seen (start x.1) (.ok x.2) none = .ok r) (f :: files) rs

theorem process_onePx {d : V3} (h : Clear d) :
    processGss seen (start (View.new d 180)) (.ok onePx) none = .ok ((load (start (View.new d 180)) onePx).1, none) := by
  unfold processGss
  simp only
  rw [load_onePx h]
  rfl

theorem C98_refuted : ¬ C98_statement := by
  intro h
  have hsq : ∀ x ∈ [(plusY, onePx), (minusY, onePx)], Square x.2 := by
    intro x hx
    simp only [List.mem_cons, List.not_mem_nil, or_false] at hx
    rcases hx with rfl | rfl <;> exact onePx_square
  set r := (load (start plusY) onePx).1
  have hi := load_inv (start_inv plusY) onePx_square
  have hif : (if onePx.rows = 0 then plusY else plusY) = plusY := by split_ifs <;> rfl
  rw [hif] at hi
  have hseq : Pool.sequential (gssSetup seen r) []
      (gssArgs ([(plusY, onePx), (minusY, onePx)].map fun x => .ok x.2) none) = .ok [(r, none), (r, none)] := by
    rw [seq_congr seen hi _ (fun a ha => by
      simp only [gssArgs, List.map_cons, List.map_nil, List.mem_cons, List.not_mem_nil, or_false, or_self] at ha
      exact ⟨_, _, ha, fun p hp => by cases hp; exact onePx_square⟩)]
    have e1 : ∀ t, (gssSetup seen t).callArgs (.pair (.ok onePx) none) = .ok [.img (.ok onePx), .illum none, .ins t] :=
      fun _ => rfl
    have e3 : ∀ t u, (gssSetup seen t).func [.img (.ok onePx), .illum none, .ins u] =
        processGss seen u (.ok onePx) none := fun _ _ => rfl
    simp only [gssArgs, List.map_cons, List.map_nil, Pool.sequential, e1, e3, process_onePx clear_example.1]
    rfl
  have h1 := h [(minusY, onePx)] (plusY, onePx) hsq (.obj false) 1 .ValueError [(r, none), (r, none)] le_rfl (by
    unfold Pool.Outcome
    rw [if_pos (show (Pool.Workers.obj false).truthy = false from rfl)]
    exact hseq.symm)
  obtain ⟨-, h2⟩ := List.forall₂_cons.mp h1
  obtain ⟨h3, -⟩ := List.forall₂_cons.mp h2
  rw [process_onePx minusY_clear] at h3
  have h4 := congrArg Prod.fst (Except.ok.inj h3)
  have h5 := congrArg St.vm h4
  rw [(load_inv (start_inv minusY) onePx_square).vm, hi.vm] at h5
  have h6 := congrArg View.dxyz h5
  rw [minusY_dxyz, plusY_dxyz] at h6
  have := congrArg V3.y h6
  norm_num at this

/-! ### C97 -/

/-- **C97** an image without a view specification is evaluated with the default view of 180 degrees: `noneFile` is
what the tools say about the file called `None`, which is not there -/
def C97_statement : Prop :=
  ∀ {α : Type} (io : ViewHdr.NumIO α) (pint : Str → Option ℤ) (noneFile f : File),
    ViewHdr.hdr2vm io pint noneFile.hd noneFile.err noneFile.dims = .error .FileNotFoundError →
    ViewHdr.hdr2vm io pint f.hd f.err f.dims = .ok none →
    initView io pint noneFile f = .ok (dfltView 180, true)

/-- what happens instead: the image is read as a view file and never loaded -/
theorem C97_no_view {α : Type} (io : ViewHdr.NumIO α) (pint : Str → Option ℤ) (noneFile f : File)
    (hn : ViewHdr.hdr2vm io pint noneFile.hd noneFile.err noneFile.dims = .error .FileNotFoundError)
    (hf : ViewHdr.hdr2vm io pint f.hd f.err f.dims = .ok none) :
    initView io pint noneFile f = (f.lines.bind fun ls => ViewHdr.vfToVm io ls).map fun v => (v, false) := by
  unfold initView
  rw [hf]
  simp only [Except.bind, Option.map_none, setterVm, hn, isValueError, isIOError, Bool.false_eq_true, if_false, if_true]

/-- **C97** the specified cases: a valid view is used and the image loaded; a file that is not an image is read as a
view file; a view line without its angle falls back to the default view, without loading the image -/
theorem C97_cases_partial {α : Type} (io : ViewHdr.NumIO α) (pint : Str → Option ℤ) (noneFile f : File) :
    (∀ v p, ViewHdr.hdr2vm io pint f.hd f.err f.dims = .ok (some (v, p)) → initView io pint noneFile f = .ok (v, true)) ∧
    (∀ e, e = .IOError ∨ e = .FileNotFoundError → ViewHdr.hdr2vm io pint f.hd f.err f.dims = .error e →
      initView io pint noneFile f = (f.lines.bind fun ls => ViewHdr.vfToVm io ls).map fun v => (v, false)) ∧
    (ViewHdr.hdr2vm io pint f.hd f.err f.dims = .error .ValueError →
      initView io pint noneFile f = .ok (dfltView 180, false)) := by
  refine ⟨fun v p h => ?_, fun e he h => ?_, fun h => ?_⟩
  · unfold initView
    rw [h]
    rfl
  · unfold initView
    rw [h]
    rcases he with rfl | rfl <;> rfl
  · unfold initView
    rw [h]
    rfl

/-- **C97** other failures of the view line are those of the constructor -/
theorem C97_other {α : Type} (io : ViewHdr.NumIO α) (pint : Str → Option ℤ) (noneFile f : File) (e : PyErr)
    (h1 : e ∉ [.ValueError, .UnicodeDecodeError, .IOError, .FileNotFoundError])
    (h : ViewHdr.hdr2vm io pint f.hd f.err f.dims = .error e) : initView io pint noneFile f = .error e := by
  unfold initView
  rw [h]
  cases e <;> simp_all [Except.bind, isValueError, isIOError]

open ViewHdr in
/-- a header cut after the type of its view -/
example : hdr2vm unary (fun _ => none) "VIEW= -vta".toList [] [] = .error .IndexError := by
  unfold hdr2vm
  rw [if_neg (by decide), if_neg (by decide)]
  have : viewTokens "VIEW= -vta".toList = .error .IndexError := by
    unfold viewTokens
    decide
  rw [this]
  rfl

open ViewHdr in
theorem C97_refuted : ¬ C97_statement := by
  intro h
  have hn : hdr2vm unary (fun _ => none) "cannot open None".toList [] [] = .error .FileNotFoundError := by
    unfold hdr2vm
    rw [if_neg (by decide), if_pos (by decide)]
  have hf : hdr2vm unary (fun _ => none) "pcomb".toList [] [] = .ok none := by
    unfold hdr2vm
    rw [if_neg (by decide), if_neg (by decide)]
    have : viewTokens "pcomb".toList = .ok none := by
      unfold viewTokens
      decide
    rw [this]
    rfl
  have h1 := h unary (fun _ => none) ⟨"cannot open None".toList, [], [], .ok []⟩ ⟨"pcomb".toList, [], [], .ok []⟩ hn hf
  rw [C97_no_view _ _ _ _ hn hf] at h1
  exact absurd h1 (by simp [Except.bind, vfToVm, Except.map])

end Verif.Gss
