import Mathlib.Analysis.SpecialFunctions.Log.Base
import Mathlib.Analysis.SpecialFunctions.Pow.Real
import Verif.Model.PosIdx
import Verif.Model.Py

/-! Metric sets: raytools/evaluate/basemetricset.py, metricset.py and colormetricset.py, over the reals.

Arrays of the caller are lists of rays (direction, solid angle, luminance).  Simplifications: float64 is exact
real arithmetic, a division by zero is 0 where numpy gives `nan`/`inf` (the theorems carry the hypotheses that
exclude it), printed warnings are dropped, the `lru_cache` on the properties is modelled in `Model/Cache.lean`
(C04) and not here: a property is the value it computes. -/

namespace Verif.Metric
open Verif.Geo Verif.Map Verif.Pos Real

/-- one entry of the arrays `vec`, `omega`, `lum` -/
structure Ray where
  v : V3
  om : ℝ
  lum : ℝ

/-- entry `i` of the caller's arrays -/
def raw (rays : List Ray) (i : ℕ) : Ray := rays.getD i ⟨V3.zero, 0, 0⟩

/-- `translate.norm(vec)[i]`, basemetricset.py 70 -/
noncomputable def nv (rays : List Ray) (i : ℕ) : V3 := Geo.norm (raw rays i).v

/-- `np.average` (`nan` for an empty array compares false with everything, as 0 does in its only use, line 79) -/
noncomputable def avg (l : List ℝ) : ℝ := l.sum / l.length

/-- `np.average(lum)` -/
noncomputable def avgLum (rays : List Ray) : ℝ := avg (rays.map Ray.lum)

/-- the conditions of `np.argwhere`, basemetricset.py 79-84, for one ray: not in view, within one degree of the
nominal edge, more than ten times brighter than the average -/
def IsStray (m : View) (rays : List Ray) (i : ℕ) : Prop :=
  avgLum rays > 0 ∧ ¬ m.inView 0 (nv rays i) ∧ isclose (m.degrees (nv rays i)) (m.va / 2) 1 ∧
    (raw rays i).lum / avgLum rays > 10

open Classical in
/-- `stray`, basemetricset.py 79-86 -/
noncomputable def strays (m : View) (rays : List Ray) : List ℕ :=
  (List.range rays.length).filter fun i => decide (IsStray m rays i)

/-- `a`, basemetricset.py 91 -/
noncomputable def halfAngle (m : View) : ℝ := m.va * π / 360

/-- `b = np.sqrt(omega/np.pi)`, basemetricset.py 88, 93, 95 -/
noncomputable def radius (om : ℝ) : ℝ := √(om / π)

/-- `x`, basemetricset.py 97 -/
noncomputable def chordX (a b2 d : ℝ) : ℝ := (a ^ 2 - b2 + d ^ 2) / (2 * d)

/-- `y`, basemetricset.py 99 -/
noncomputable def chordY (a b2 d : ℝ) : ℝ := √(a ^ 2 - chordX a b2 d ^ 2)

/-- the clipped solid angle, basemetricset.py 100-101 -/
noncomputable def lens (a b2 d : ℝ) : ℝ :=
  a ^ 2 * arcsin (chordY a b2 d / a) + b2 * arcsin (chordY a b2 d / √b2)
    - chordY a b2 d * (chordX a b2 d + √(b2 - a ^ 2 + chordX a b2 d ^ 2))

/-- the moved direction, basemetricset.py 102-107: rotation by `r` about `up = vst x dxyz` -/
noncomputable def moved (up vst : V3) (r : ℝ) : V3 := bwd up (rotateElem false 2 r (fwd up vst))

/-- the arrays the loop over `stray` writes: `omega` (the caller's), `v` (a copy), `mask` -/
structure Sel where
  om : ℕ → ℝ
  v : ℕ → V3
  mask : ℕ → Prop

/-- before the loop, basemetricset.py 70, 77 -/
noncomputable def sel0 (m : View) (rays : List Ray) : Sel where
  om i := (raw rays i).om
  v := nv rays
  mask i := m.inView 0 (nv rays i)

/-- the test of basemetricset.py 96, with `d` and `b` from the values before the loop -/
def Overlaps (m : View) (rays : List Ray) (s : ℕ) : Prop :=
  halfAngle m - radius (raw rays s).om < m.radians (nv rays s) ∧
  m.radians (nv rays s) < halfAngle m + radius (raw rays s).om

/-- the clipped solid angle computed for ray `s` -/
noncomputable def clipOm (m : View) (rays : List Ray) (s : ℕ) : ℝ :=
  lens (halfAngle m) ((raw rays s).om / π) (m.radians (nv rays s))

/-- the moved direction computed for ray `s` -/
noncomputable def clipV (m : View) (rays : List Ray) (s : ℕ) : V3 :=
  moved (cross (nv rays s) m.dxyz) (nv rays s)
    (m.radians (nv rays s) - chordX (halfAngle m) ((raw rays s).om / π) (m.radians (nv rays s)))

open Classical in
/-- one pass of the loop, basemetricset.py 95-108: the assignment on line 100 is to `omega[stray]`, every stray -/
noncomputable def strayStep (m : View) (rays : List Ray) (st : Sel) (s : ℕ) : Sel :=
  if Overlaps m rays s then
    { om := fun i => if i ∈ strays m rays then clipOm m rays s else st.om i
      v := fun i => if i = s then clipV m rays s else st.v i
      mask := fun i => i = s ∨ st.mask i }
  else st

/-- basemetricset.py 77-108 -/
noncomputable def select (m : View) (rays : List Ray) : Sel := (strays m rays).foldl (strayStep m rays) (sel0 m rays)

open Classical in
/-- `view_mask` as the list of kept positions, basemetricset.py 75, 109 -/
noncomputable def kept (m : View) (rays : List Ray) : List ℕ :=
  if m.two then List.range rays.length
  else (List.range rays.length).filter fun i => decide ((select m rays).mask i)

/-- `_vec`, `_lum` and the argument of the `omega` setter, basemetricset.py 72-74, 110-116 -/
noncomputable def viewRays (m : View) (rays : List Ray) : List Ray :=
  (kept m rays).map fun i =>
    if m.two then ⟨nv rays i, (raw rays i).om, (raw rays i).lum⟩
    else ⟨(select m rays).v i, (select m rays).om i, (raw rays i).lum⟩

/-- contents of the caller's `omega` array after the constructor -/
noncomputable def callerOmega (m : View) (rays : List Ray) : List ℝ :=
  (List.range rays.length).map fun i => if m.two then (raw rays i).om else (select m rays).om i

/-- `np.sum(omega)` -/
noncomputable def omSum (rays : List Ray) : ℝ := (rays.map Ray.om).sum

open Classical in
/-- `onedge` after `k` enlargements, basemetricset.py 184, 194 -/
noncomputable def onEdge (m : View) (k : ℕ) (r : Ray) : Bool :=
  decide (m.radians r.v > m.va * π / 360 - √r.om * 1.1 ^ k)

/-- `edgetotal`, basemetricset.py 185 -/
noncomputable def edgeTotal (m : View) (k : ℕ) (rays : List Ray) : ℝ := omSum (rays.filter (onEdge m k))

/-- `excess`, basemetricset.py 178 -/
noncomputable def excess (m : View) (rays : List Ray) : ℝ := omSum rays - m.area

/-- `adjust`, basemetricset.py 186-188 -/
noncomputable def adjust (m : View) (k : ℕ) (rays : List Ray) : ℝ :=
  if edgeTotal m k rays > 0 then 1 - excess m rays / edgeTotal m k rays else 1

/-- the `while True` loop, basemetricset.py 182-196: the number of enlargements when it breaks; `none` when it
has not ended within `fuel` passes -/
noncomputable def widen (m : View) (rays : List Ray) : ℕ → ℕ → Option ℕ
  | 0, _ => none
  | fuel + 1, k => if adjust m k rays < 0 then widen m rays fuel (k + 1) else some k

/-- basemetricset.py 197: `self._omega[onedge] = og[onedge] * adjust` -/
noncomputable def applyAdjust (m : View) (k : ℕ) (rays : List Ray) : List Ray :=
  rays.map fun r => ⟨r.v, if onEdge m k r then r.om * adjust m k rays else r.om, r.lum⟩

/-- `omega.setter`, basemetricset.py 171-200: the rays with their final solid angles, and `view_area` -/
noncomputable def setOmega (m : View) (correct : Bool) (rays : List Ray) (fuel : ℕ) : Option (List Ray × ℝ) :=
  if correct && decide (rays.length > 100) then
    (widen m rays fuel 0).map fun k => (applyAdjust m k rays, m.area)
  else some (rays, omSum rays)

/-- constructor arguments other than the rays and the view -/
structure Opts where
  scale : ℝ
  guth : Bool
  omAsArea : Bool
  thr : ℝ
  tradius : ℝ
  lowlight : Bool

/-- a constructed `MetricSet` -/
structure MS where
  m : View
  rays : List Ray
  area : ℝ
  o : Opts

/-- `BaseMetricSet.__init__`, `MetricSet.__init__` (basemetricset.py 60-119, metricset.py 64-73) -/
noncomputable def build (m : View) (o : Opts) (rays : List Ray) (fuel : ℕ) : Option MS :=
  (setOmega m (!o.omAsArea) (viewRays m rays) fuel).map fun r => ⟨m, r.1, r.2, o⟩

/-- `np.einsum('i,...->', ...)` -/
noncomputable def sumBy (f : Ray → ℝ) (rays : List Ray) : ℝ := (rays.map f).sum

namespace MS

/-- `ctheta`, basemetricset.py 204-208, one ray -/
noncomputable def ct (s : MS) (r : Ray) : ℝ := Geo.ctheta s.m.dxyz r.v

/-- `pos_idx`, basemetricset.py 217-220, one ray -/
noncomputable def pos (s : MS) (r : Ray) : ℝ := positions s.o.guth s.m r.v

/-- `pweight`, basemetricset.py 222-225, one ray -/
noncomputable def pw (s : MS) (r : Ray) : ℝ := r.om / s.pos r ^ 2

/-- `pweighted_area`, basemetricset.py 229-232 -/
noncomputable def pwArea (s : MS) : ℝ := sumBy s.pw s.rays

/-- `illum`, basemetricset.py 234-239 -/
noncomputable def illum (s : MS) : ℝ := sumBy (fun r => s.ct r * r.lum * r.om) s.rays * s.o.scale

/-- `avglum`, basemetricset.py 241-246 -/
noncomputable def avglum (s : MS) : ℝ := sumBy (fun r => r.lum * r.om) s.rays * s.o.scale / s.area

/-- `pwavglum`, basemetricset.py 254-259 -/
noncomputable def pwavglum (s : MS) : ℝ := sumBy (fun r => r.lum * s.pw r) s.rays * s.o.scale / s.pwArea

/-- `avgraylum`, basemetricset.py 261-265 -/
noncomputable def avgraylum (s : MS) : ℝ := avg (s.rays.map Ray.lum) * s.o.scale

/-- `gcr`, basemetricset.py 267-277 -/
noncomputable def gcr (s : MS) : ℝ :=
  if s.avglum > 0 then
    sumBy (fun r => r.lum * r.lum * r.om) s.rays * s.o.scale ^ 2 / s.area / s.avglum ^ 2
  else 1

/-- `pwgcr`, basemetricset.py 279-290 -/
noncomputable def pwgcr (s : MS) : ℝ :=
  if s.pwavglum > 0 then
    sumBy (fun r => r.lum * r.lum * s.pw r) s.rays * s.o.scale ^ 2 / s.pwArea / s.pwavglum ^ 2
  else 1

/-- `logpwgcr`, `loggcr`, basemetricset.py 292-302 -/
noncomputable def logpwgcr (s : MS) : ℝ := logb 10 s.pwgcr
noncomputable def loggcr (s : MS) : ℝ := logb 10 s.gcr

/-- `density`, basemetricset.py 304-307 -/
noncomputable def density (s : MS) : ℝ := s.rays.length / s.area

/-- `tasklum`, metricset.py 82-85, 171-176 -/
noncomputable def tasklum (s : MS) : ℝ :=
  sumBy (fun r => r.lum * r.om) (s.rays.filter fun r => decide (s.m.degrees r.v < s.o.tradius)) * s.o.scale
    / omSum (s.rays.filter fun r => decide (s.m.degrees r.v < s.o.tradius))

/-- `threshold`, metricset.py 114-122 -/
noncomputable def threshold (s : MS) : ℝ := if s.o.thr > 100 then s.o.thr else s.tasklum * s.o.thr

/-- `src_mask`, metricset.py 76-80, one ray -/
noncomputable def src (s : MS) (r : Ray) : Bool := decide (r.lum * s.o.scale > s.threshold)

/-- `sources`, metricset.py 87-95 -/
noncomputable def sources (s : MS) : List Ray := s.rays.filter s.src

/-- `background`, metricset.py 97-105 -/
noncomputable def background (s : MS) : List Ray := s.rays.filter fun r => !s.src r

/-- `pwsl2`, metricset.py 124-131 (`source_pos_idx` is `pos_idx` under the same mask as `sources`) -/
noncomputable def pwsl2 (s : MS) : ℝ := sumBy (fun r => r.lum ^ 2 * r.om * s.o.scale ^ 2 / s.pos r ^ 2) s.sources

/-- `srcillum`, metricset.py 133-139 -/
noncomputable def srcillum (s : MS) : ℝ := sumBy (fun r => s.ct r * r.lum * r.om) s.sources * s.o.scale

/-- `srcarea`, metricset.py 141-146 -/
noncomputable def srcarea (s : MS) : ℝ := omSum s.sources

/-- `maxlum`, metricset.py 148-155 -/
noncomputable def maxlum (s : MS) : ℝ :=
  if s.rays.length > 0 then ((s.rays.map Ray.lum).foldl max (s.rays.map Ray.lum).headI) * s.o.scale else 0

/-- `backlum`, metricset.py 157-162 -/
noncomputable def backlum (s : MS) : ℝ := (s.illum - s.srcillum) / π

/-- `backlum_true`, metricset.py 164-169 -/
noncomputable def backlumTrue (s : MS) : ℝ :=
  sumBy (fun r => r.lum * r.om) s.background * s.o.scale / omSum s.background

/-- `dgp_t1`, `log_gc`, `dgp_t2`, metricset.py 187-200 -/
noncomputable def dgpT1 (s : MS) : ℝ := 5.87 * 10 ^ (-5 : ℤ) * s.illum
noncomputable def logGc (s : MS) : ℝ := logb 10 (1 + s.pwsl2 / s.illum ^ (1.87 : ℝ))
noncomputable def dgpT2 (s : MS) : ℝ := 9.18 * 10 ^ (-2 : ℤ) * s.logGc

/-- `ll`, metricset.py 182-184 -/
noncomputable def ll (s : MS) : ℝ :=
  if s.o.lowlight ∧ s.illum < 500 then exp (0.024 * s.illum - 4) / (1 + exp (0.024 * s.illum - 4)) else 1

/-- `dgp`, metricset.py 179-185 -/
noncomputable def dgp (s : MS) : ℝ := min (s.ll * (s.dgpT1 + s.dgpT2 + 0.16)) 1

/-- `ugr`, metricset.py 202-207 -/
noncomputable def ugr (s : MS) : ℝ := max 0 (8 * logb 10 (0.25 * s.pwsl2 / s.backlum))

/-- `ugp` as a function of `ugr`, metricset.py 212 -/
noncomputable def ugpOf (u : ℝ) : ℝ := (1 + 2 / 7 * (10 : ℝ) ^ (-(u + 5) / 40)) ^ (-10 : ℤ)

/-- `ugp`, metricset.py 209-212 -/
noncomputable def ugp (s : MS) : ℝ := ugpOf s.ugr

/-- `BaseMetricSet.maxlum`, basemetricset.py 248-252: `np.max` of an empty array raises -/
noncomputable def maxlumBase (s : MS) : Except Py.PyErr ℝ :=
  if s.rays.length > 0 then .ok s.maxlum else .error .ValueError

end MS

/-- `BaseMetricSet.defaultmetrics`, `allmetrics`, basemetricset.py 52-56 -/
def baseDefault : List String := ["illum", "avglum", "loggcr"]
def baseAll : List String :=
  baseDefault ++ ["gcr", "pwgcr", "logpwgcr", "density", "avgraylum", "pwavglum", "maxlum"]

/-- `MetricSet.defaultmetrics`, `allmetrics`, metricset.py 53-60 -/
def msDefault : List String := baseDefault ++ ["ugp", "dgp"]
def msAll : List String :=
  baseAll ++ ["ugp", "dgp", "tasklum", "backlum", "dgp_t1", "log_gc", "dgp_t2", "ugr", "threshold", "pwsl2",
    "view_area", "backlum_true", "srcillum", "srcarea", "maxlum"]

/-- `ColorMetricSet.defaultmetrics`, `allmetrics`, colormetricset.py 61-64 -/
def colDefault : List String := ["illum", "irradiance"]
def colAll : List String := msAll ++ ["illum", "irradiance"]

/-- `safe2sum` of the three classes, basemetricset.py 58, metricset.py 62, colormetricset.py 66 -/
def baseSafe : List String := ["illum", "avglum", "density"]
def msSafe : List String := baseSafe ++ ["pwsl2", "srcillum"]
def colSafe : List String := msSafe ++ ["illum", "irradiance"]

/-- `check_metrics`, basemetricset.py 141-150 -/
def checkMetrics (all metrics : List String) (raiseError : Bool) : Except Py.PyErr (List String) :=
  if raiseError && decide ((metrics.filter (all.contains ·)).length ≠ metrics.length) then .error .AttributeError
  else .ok (metrics.filter (all.contains ·))

/-- `check_safe2sum`, basemetricset.py 152-157 -/
def checkSafe (safe metrics : List String) : Bool := metrics.all (safe.contains ·)

/-- `getattr(self, name)` of a `BaseMetricSet`, for the names of properties that are metrics -/
noncomputable def baseAttr (s : MS) (name : String) : Except Py.PyErr ℝ :=
  if name = "illum" then .ok s.illum
  else if name = "avglum" then .ok s.avglum
  else if name = "loggcr" then .ok s.loggcr
  else if name = "gcr" then .ok s.gcr
  else if name = "pwgcr" then .ok s.pwgcr
  else if name = "logpwgcr" then .ok s.logpwgcr
  else if name = "density" then .ok s.density
  else if name = "avgraylum" then .ok s.avgraylum
  else if name = "pwavglum" then .ok s.pwavglum
  else if name = "maxlum" then s.maxlumBase
  else .error .AttributeError

/-- `getattr(self, name)` of a `MetricSet`: its own properties, then those of the base class -/
noncomputable def msAttr (s : MS) (name : String) : Except Py.PyErr ℝ :=
  if name = "maxlum" then .ok s.maxlum
  else if name = "ugp" then .ok s.ugp
  else if name = "dgp" then .ok s.dgp
  else if name = "tasklum" then .ok s.tasklum
  else if name = "backlum" then .ok s.backlum
  else if name = "dgp_t1" then .ok s.dgpT1
  else if name = "log_gc" then .ok s.logGc
  else if name = "dgp_t2" then .ok s.dgpT2
  else if name = "ugr" then .ok s.ugr
  else if name = "threshold" then .ok s.threshold
  else if name = "pwsl2" then .ok s.pwsl2
  else if name = "view_area" then .ok s.area
  else if name = "backlum_true" then .ok s.backlumTrue
  else if name = "srcillum" then .ok s.srcillum
  else if name = "srcarea" then .ok s.srcarea
  else baseAttr s name

/-- `[getattr(self, m) for m in metrics]` -/
def collect {β : Type} (attr : String → Except Py.PyErr β) : List String → Except Py.PyErr (List β)
  | [] => .ok []
  | n :: ns => (attr n).bind fun v => (collect attr ns).map (v :: ·)

/-- `__call__`, basemetricset.py 121-139: `dflt` is `self.defaultmetrics`, a requested list is checked first -/
def call {β : Type} (all dflt : List String) (attr : String → Except Py.PyErr β) (metrics : Option (List String)) :
    Except Py.PyErr (List β) :=
  match metrics with
  | none => collect attr dflt
  | some ms => (checkMetrics all ms true).bind fun _ => collect attr ms

/-- a row of the arrays of a `ColorMetricSet` with `M` channels -/
structure CRay (M : ℕ) where
  v : V3
  om : ℝ
  rgb : Fin M → ℝ

/-- `io.rgb2rad(rgb, vlambda)`, io.py 329-330, one row -/
noncomputable def rgb2rad {M : ℕ} (w rgb : Fin M → ℝ) : ℝ := ∑ j, rgb j * w j

/-- the luminance row handed to the base class, colormetricset.py 71-72 -/
noncomputable def CRay.toRay {M : ℕ} (w : Fin M → ℝ) (c : CRay M) : Ray := ⟨c.v, c.om, rgb2rad w c.rgb⟩

/-- a constructed `ColorMetricSet`: the base class and `_rgb` -/
structure CMS (M : ℕ) where
  s : MS
  rgb : List (Fin M → ℝ)

/-- `ColorMetricSet.__init__`, colormetricset.py 68-78: `rgb[self.view_mask]` -/
noncomputable def buildColor {M : ℕ} (m : View) (o : Opts) (w : Fin M → ℝ) (rays : List (CRay M)) (fuel : ℕ) :
    Option (CMS M) :=
  (build m o (rays.map (CRay.toRay w)) fuel).map fun s =>
    ⟨s, (kept m (rays.map (CRay.toRay w))).map fun i => (rays.getD i ⟨V3.zero, 0, fun _ => 0⟩).rgb⟩

/-- `irradiance`, colormetricset.py 172-176: channel `j` -/
noncomputable def CMS.irradiance {M : ℕ} (c : CMS M) (j : Fin M) : ℝ :=
  ((List.zip c.s.rays c.rgb).map fun p => c.s.ct p.1 * p.2 j * p.1.om).sum * c.s.o.scale

/-- `getattr` of a `ColorMetricSet`: the entries `hasattr(r, '__len__')` unpacks, colormetricset.py 94-98.  The
overridden properties (140-169) repeat those of `MetricSet` with one more value to ignore. -/
noncomputable def colAttr {M : ℕ} (c : CMS M) (name : String) : Except Py.PyErr (List ℝ) :=
  if name = "irradiance" then .ok (List.ofFn c.irradiance) else (msAttr c.s name).map fun x => [x]

/-- `ColorMetricSet.__call__`, colormetricset.py 80-110 -/
noncomputable def colCall {M : ℕ} (c : CMS M) (dflt : List String) (metrics : Option (List String)) :
    Except Py.PyErr (List ℝ) :=
  (call colAll dflt (colAttr c) metrics).map List.flatten

end Verif.Metric
