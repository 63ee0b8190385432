import Verif.Model.Peak
import Verif.Model.Metric
import Verif.Model.Project
import Verif.Model.Pool

/-! `hdr2vol`, `imgmetric` (raytools/imagetools.py 197-206, 451-480) and the `metric` command (raytools/cli.py 87-147).

What the Radiance tools report about a file is data (`Image`). Simplifications: square images, views of one hemisphere; `lumrgb` has three
entries; the peak options not reachable from `imgmetric`'s callers keep their defaults; the 0-d array left by `np.squeeze`
when a single ray remains is an array of one entry; the number format of the printed table is not modelled. -/

namespace Verif.Cmd
open Verif.Geo Verif.Map Verif.Py Verif.Metric Verif.Peak Real

/-- One image file: `hdr2vm(imgf)`, the `luminancergb` entry of `hdr_header(imgf, items=['luminancergb'])`, width and
height, `hdr2array(imgf)` and `hdr2carray(imgf)`. -/
structure Image where
  vm : Except PyErr (Option View)
  item : Except PyErr Str
  res : ℕ
  bright : ℕ → ℕ → ℝ
  rgb : ℕ → ℕ → Fin 3 → ℝ

/-- `[float(i) for i in lumrgb.split()]`, imagetools.py 464 -/
def floats (fl : Str → Option ℝ) : List Str → Except PyErr (List ℝ)
  | [] => .ok []
  | s :: ss =>
    match fl s with
    | none => .error .ValueError
    | some a => (floats fl ss).map (a :: ·)

/-- three weights, or `None` for any other number, imagetools.py 465-468 -/
def triple : List ℝ → Option (Fin 3 → ℝ)
  | [a, b, c] => some ![a, b, c]
  | _ => none

/-- the first argument of `np.allclose`, imagetools.py 470 -/
noncomputable def radianceRgb : Fin 3 → ℝ := ![0.26507413, 0.67011463, 0.06481124]

/-- `np.allclose(radiance, lumrgb, atol=.001)` -/
def nearDefault (w : Fin 3 → ℝ) : Prop := ∀ j, isclose (radianceRgb j) (w j) 0.001

open Classical in
/-- `lumrgb` in force, imagetools.py 461-471 -/
noncomputable def weights (fl : Str → Option ℝ) (im : Image) (needscolor : Bool) (lumrgb : Option (Fin 3 → ℝ)) :
    Except PyErr (Option (Fin 3 → ℝ)) :=
  match lumrgb with
  | some w => .ok (some w)
  | none =>
    im.item.bind fun s => (floats fl (tokens s)).map fun l =>
      match triple l with
      | none => none
      | some w => if !needscolor && decide (nearDefault w) then none else some w

/-- `needscolor`, imagetools.py 456-460 -/
def needsColor (metrics : List String) : Bool :=
  match checkMetrics msAll metrics true with
  | .ok _ => false
  | .error _ => true

/-- view used, imagetools.py 453-455 -/
noncomputable def viewOf (im : Image) : Except PyErr View := im.vm.map fun v => v.getD (dfltView 180)

/-- `io.hdr2array(imgf, vlambda=vlambda)`, io.py 237-242, one pixel -/
noncomputable def greyOf (im : Image) (w : Option (Fin 3 → ℝ)) (i j : ℕ) : ℝ :=
  match w with
  | none => im.bright i j
  | some w => ∑ c, im.rgb i j c * w c

/-- the rows of `hdr2vol`, imagetools.py 197-206, in the order of `ravel` -/
noncomputable def vol {k : ℕ} (v : View) (res : ℕ) (val : ℕ → ℕ → Fin k → ℝ) (q : Fin (res * res)) : Px k :=
  ⟨v.pixel2ray res (pixelCentre (q / res) (q % res)), v.pixel2omega res (pixelCentre (q / res) (q % res)),
    val (q / res) (q % res)⟩

/-- the options passed on to `normalize_peak`, cli.py 123-127 -/
structure PeakArgs where
  peaka : ℝ
  peakt : ℝ
  peakr : ℝ
  blursun : Bool

/-- the default of `vlambda` in `normalize_peak`, imagetools.py 361: `imgmetric` does not pass its own -/
noncomputable def defaultRgb : Fin 3 → ℝ := ![0.265, 0.670, 0.065]

noncomputable def PeakArgs.par {k : ℕ} (a : PeakArgs) (scale : ℝ) (w : Fin k → ℝ) : Par k :=
  ⟨scale, a.peaka, a.peakt, a.peakr, 0.75, 1, 4, a.blursun, w⟩

/-- imagetools.py 473-474 -/
noncomputable def afterPeak {k n : ℕ} (S : Sorter n) (pk : Option PeakArgs) (scale : ℝ) (w : Fin k → ℝ)
    (x : Fin n → Px k) : Except PyErr (List (Px k)) :=
  match pk with
  | none => .ok ((List.finRange n).map x)
  | some a => normalizePeak S (a.par scale w) false x

/-- options of the metric set: `scale`, `threshold`, `lowlight`, and the defaults of the constructor -/
structure MetricArgs where
  scale : ℝ
  threshold : ℝ
  lowlight : Bool

noncomputable def MetricArgs.opts (a : MetricArgs) : Opts := ⟨a.scale, true, false, a.threshold, 30, a.lowlight⟩

noncomputable def asRay (p : Px 1) : Ray := ⟨p.v, p.o, p.c 0⟩
noncomputable def asCRay (p : Px 3) : CRay 3 := ⟨p.v, p.o, p.c⟩

/-- imagetools.py 479-480 -/
noncomputable def greyMetrics (v : View) (a : MetricArgs) (metrics : List String) (fuel : ℕ) (l : List (Px 1)) :
    Except PyErr (Option (List ℝ)) :=
  match checkMetrics msAll metrics true with
  | .error e => .error e
  | .ok _ =>
    match build v a.opts (l.map asRay) fuel with
    | none => .ok none
    | some s => (call msAll metrics (msAttr s) none).map some

/-- imagetools.py 475-478: `len(vlambda)` of `None` is a TypeError, raised before the names are checked -/
noncomputable def colorMetrics (v : View) (a : MetricArgs) (metrics : List String) (fuel : ℕ) (w : Option (Fin 3 → ℝ))
    (l : List (Px 3)) : Except PyErr (Option (List ℝ)) :=
  match w with
  | none => .error .TypeError
  | some w =>
    match checkMetrics colAll metrics true with
    | .error e => .error e
    | .ok _ =>
      match buildColor v a.opts w (l.map asCRay) fuel with
      | none => .ok none
      | some c => (colCall c metrics none).map some

/-- `imgmetric`, imagetools.py 451-480. The inner option is `none` when the loop of the `omega` setter has not ended
within `fuel` passes. -/
noncomputable def imgMetric (fl : Str → Option ℝ) (S : ∀ n, Sorter n) (fuel : ℕ) (metrics : List String)
    (lumrgb : Option (Fin 3 → ℝ)) (pk : Option PeakArgs) (a : MetricArgs) (im : Image) :
    Except PyErr (Option (List ℝ)) :=
  match viewOf im with
  | .error e => .error e
  | .ok v =>
    match weights fl im (needsColor metrics) lumrgb with
    | .error e => .error e
    | .ok w =>
      if needsColor metrics then
        match afterPeak (S _) pk a.scale defaultRgb (vol v im.res im.rgb) with
        | .error e => .error e
        | .ok l => colorMetrics v a metrics fuel w l
      else
        match afterPeak (S _) pk a.scale (fun _ : Fin 1 => 1) (vol v im.res fun i j _ => greyOf im w i j) with
        | .error e => .error e
        | .ok l => greyMetrics v a metrics fuel l

/-! The command -/

/-- what `pool_call` is given: `list(zip(imgs))` holds one-tuples -/
inductive PoolArg
  | name (i : Str)
  | tuple (l : List Str)

/-- `pool_call(imagetools.imgmetric, list(zip(imgs)), metrics, ...)`, cli.py 123-127: one-tuples are unpacked, the other
arguments are the same for every call and part of `f` -/
def poolSetup (f : Str → Except PyErr (List ℝ)) : Pool.Setup PoolArg PyErr (List ℝ) where
  func xs := match xs with
    | [.name i] => f i
    | _ => .error .TypeError
  unpack
    | .tuple l => .ok (l.map .name)
    | .name i => .ok (i.map fun c => .name [c])
  expandarg := true
  fixed := []

/-- `list(zip(imgs))`, cli.py 124 -/
def poolArgs (imgs : List Str) : List PoolArg := imgs.map fun i => .tuple [i]

/-- `metrics.pop(metrics.index(name))` if present, cli.py 114-121 -/
def popName (name : String) (ms : List String) : Bool × List String :=
  if name ∈ ms then (true, ms.erase name) else (false, ms)

/-- column names after the pops: requested names without the first `gss`, then without the first `gssnb` -/
def plain (ms : List String) : List String := (popName "gssnb" (popName "gss" ms).2).2

def wantsGss (ms : List String) : Bool := (popName "gss" ms).1
def wantsNb (ms : List String) : Bool := (popName "gssnb" (popName "gss" ms).2).1

/-- printed header, cli.py 145: `image` and the names -/
def header (ms : List String) : List String :=
  "image" :: (plain ms ++ (if wantsGss ms then ["gss"] else []) ++ if wantsNb ms then ["gssnb"] else [])

/-- `np.hstack((results, gresult))`, or `gresult` alone, cli.py 134-137 -/
def addCol (results : Option (List (List ℝ))) (col : List ℝ) : Option (List (List ℝ)) :=
  match results with
  | some rows => some (List.zipWith (fun r x => r ++ [x]) rows col)
  | none => some (col.map fun x => [x])

/-- cli.py 122-130; `rows` is the outcome of the pool call -/
def stage0 (ms : List String) (rows : Except PyErr (List (List ℝ))) : Except PyErr (Option (List (List ℝ))) :=
  if (plain ms).length > 0 then rows.map some else .ok none

/-- cli.py 131-137, 138-144: one more column when it is wanted -/
def stage (wanted : Bool) (col : Except PyErr (List ℝ)) (r : Option (List (List ℝ))) :
    Except PyErr (Option (List (List ℝ))) :=
  if wanted then col.map (addCol r) else .ok r

/-- cli.py 145-147: `zip(imgs, None)` is a TypeError -/
def printed (imgs : List Str) (ms : List String) (r : Option (List (List ℝ))) :
    Except PyErr (List String × List (Str × List ℝ)) :=
  match r with
  | none => .error .TypeError
  | some rs => .ok (header ms, imgs.zip rs)

/-- the table of `metric`, cli.py 110-147, given the outcomes of the three pool calls: header and printed rows -/
def metricCmd (imgs : List Str) (ms : List String) (rows : Except PyErr (List (List ℝ)))
    (gss nb : Except PyErr (List ℝ)) : Except PyErr (List String × List (Str × List ℝ)) :=
  (stage0 ms rows).bind fun r0 => (stage (wantsGss ms) gss r0).bind fun r1 =>
    (stage (wantsNb ms) nb r1).bind fun r2 => printed imgs ms r2

end Verif.Cmd
