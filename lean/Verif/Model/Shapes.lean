import Verif.Model.Command

/-! `hdr2vol` and `imgmetric` for images of any width and height and for views of both hemispheres: raytools/imagetools.py
197-206, 451-480, with the places of basemetricset.py 60-116, 171-200 and metricset.py where arrays of different lengths meet.
Luminance metrics, `peakn=False`, images of more than one row of pixels (numpy stretches arrays of one entry). -/

namespace Verif.Cmd
open Verif.Geo Verif.Map Verif.Py Verif.Metric Verif.Peak Real

/-- an image file of `n` columns and `m` rows; the other fields as in `Image` -/
structure Pic where
  vm : Except PyErr (Option View)
  item : Except PyErr Str
  n : ℕ
  m : ℕ
  bright : ℕ → ℕ → ℝ
  rgb : ℕ → ℕ → Fin 3 → ℝ

/-- the square image of as many rows with the same header and the same first pixels -/
def Pic.square (p : Pic) : Image := ⟨p.vm, p.item, p.m, p.bright, p.rgb⟩

/-- an array of shape `(n, m)` in the order of `ravel` -/
def gridRows {α : Type} (n m : ℕ) (f : ℕ → ℕ → α) : List α := (List.finRange (n * m)).map fun q : Fin (n * m) => f (q.val / m) (q.val % m)

/-- `vecs`, imagetools.py 204: `AngularMixin.pixelrays` has the rays of both halves -/
noncomputable def vecRows (v : View) (m : ℕ) : List V3 :=
  gridRows m m (fun i j => v.pixel2ray m (pixelCentre i j)) ++
    if v.two then gridRows m m (fun i j => v.ivm.pixel2ray m (pixelCentre i j)) else []

/-- `oga`, imagetools.py 205: `pixels` has the pixels of one half -/
noncomputable def omRows (v : View) (m : ℕ) : List ℝ := gridRows m m fun i j => v.pixel2omega m (pixelCentre i j)

/-- the values, imagetools.py 206 -/
def lumRows {α : Type} (n m : ℕ) (val : ℕ → ℕ → α) : List α := gridRows n m val

/-- what the constructor makes of the three arrays: a set of rays, or arrays that do not belong together -/
inductive ArrSet
  | even (s : MS)
  | uneven (v : View) (o : Opts) (om lum : List ℝ)

/-- the rays of the first `m` rows and columns -/
noncomputable def squareRays (v : View) (m : ℕ) (val : ℕ → ℕ → ℝ) : List Ray :=
  gridRows m m fun i j => ⟨v.pixel2ray m (pixelCentre i j), v.pixel2omega m (pixelCentre i j), val i j⟩

/-- `MetricSet.__init__` with the arrays of `hdr2vol`, basemetricset.py 60-119. With two halves the `omega` setter compares an angle
for every ray with a width for every pixel of one half (184). With one half `np.all` cannot stack masks of different lengths (80-84);
it is not reached when the average is not positive, and then the `IndexError` of `lum[mask]` is answered with zeros (111-115). -/
noncomputable def picSet (v : View) (o : Opts) (n m : ℕ) (val : ℕ → ℕ → ℝ) (fuel : ℕ) : Except PyErr (Option ArrSet) :=
  if v.two then
    if !o.omAsArea && decide ((vecRows v m).length > 100) then .error .ValueError
    else .ok (some (.uneven v o (omRows v m) (lumRows n m val)))
  else if n = m then .ok ((build v o (squareRays v m val) fuel).map .even)
  else if avg (lumRows n m val) > 0 then .error .ValueError
  else .ok ((build v o (squareRays v m fun _ _ => 0) fuel).map .even)

/-- attributes that are computed from the solid angles alone, the luminances alone, or neither -/
noncomputable def loneAttr (o : Opts) (om lum : List ℝ) (name : String) : Option ℝ :=
  if name = "maxlum" then some (if lum.length > 0 then lum.foldl max lum.headI * o.scale else 0)
  else if name = "avgraylum" then some (avg lum * o.scale)
  else if name = "view_area" then some om.sum
  else if name = "density" then some (om.length / om.sum)
  else if name = "threshold" ∧ o.thr > 100 then some o.thr
  else none

/-- attributes that meet a boolean mask of the wrong length first: an `IndexError` -/
def maskFirst : List String :=
  ["tasklum", "threshold", "pwsl2", "srcillum", "srcarea", "backlum_true", "log_gc", "dgp_t2", "ugr", "ugp"]

/-- attributes of luminances and solid angles without directions -/
def dirless : List String := ["avglum", "gcr", "loggcr"]

/-- `getattr` for arrays of different lengths: as many directions as two halves have pixels, solid angles of one half; the other
attributes multiply arrays that cannot be broadcast -/
noncomputable def unevenAttr (v : View) (o : Opts) (om lum : List ℝ) (name : String) : Except PyErr ℝ :=
  match loneAttr o om lum name with
  | some x => .ok x
  | none =>
    if name ∈ maskFirst then .error .IndexError
    else if name ∈ dirless ∧ om.length = lum.length then
      baseAttr ⟨v, List.zipWith (fun a b => ⟨V3.zero, a, b⟩) om lum, om.sum, o⟩ name
    else if name ∈ msAll then .error .ValueError
    else .error .AttributeError

/-- `getattr(self, name)` -/
noncomputable def ArrSet.attr : ArrSet → String → Except PyErr ℝ
  | .even s, name => msAttr s name
  | .uneven v o om lum, name => unevenAttr v o om lum name

/-- imagetools.py 479-480 -/
noncomputable def picMetrics (v : View) (a : MetricArgs) (metrics : List String) (fuel : ℕ) (n m : ℕ) (val : ℕ → ℕ → ℝ) :
    Except PyErr (Option (List ℝ)) :=
  match checkMetrics msAll metrics true with
  | .error e => .error e
  | .ok _ =>
    match picSet v a.opts n m val fuel with
    | .error e => .error e
    | .ok none => .ok none
    | .ok (some s) => (call msAll metrics s.attr none).map some

/-- `imgmetric` for luminance metrics, imagetools.py 451-480 -/
noncomputable def picMetric (fl : Str → Option ℝ) (fuel : ℕ) (metrics : List String) (lumrgb : Option (Fin 3 → ℝ)) (a : MetricArgs)
    (p : Pic) : Except PyErr (Option (List ℝ)) :=
  match viewOf p.square with
  | .error e => .error e
  | .ok v =>
    match weights fl p.square false lumrgb with
    | .error e => .error e
    | .ok w => picMetrics v a metrics fuel p.n p.m fun i j => greyOf p.square w i j

end Verif.Cmd
