import Verif.Model.ViewHeader
import Verif.Model.Project
import Verif.Model.Pool
import Mathlib.Analysis.SpecialFunctions.Pow.Real
import Mathlib.Analysis.SpecialFunctions.Log.Base
import Mathlib.Analysis.SpecialFunctions.Sqrt

/-! Glare sensation score, raytools/evaluate/hvsgsm.py, over the reals.

An image is a function on a finite type of pixels. Simplifications: `scipy.ndimage.gaussian_filter` is a parameter
(contract `Averaging`), `scipy.ndimage.convolve` is a sum over the kernel entries of the pixels picked by a parameter
`src` (whatever the treatment of the image border). -/

namespace Verif.Gss
open Verif.Geo Verif.Map Verif.Py Real

/-! The optics -/

/-- `f_b`, hvsgsm.py 70-80 -/
noncomputable def fb (b c phi : ℝ) : ℝ := c * b / (2 * π * (sin phi ^ 2 + b ^ 2 * cos phi ^ 2) ^ (1.5 : ℝ))

/-- `l_b`, hvsgsm.py 83-92 -/
noncomputable def lb (b c phi : ℝ) : ℝ := c * b / (π * (sin phi ^ 2 + b ^ 2 * cos phi ^ 2))

/-- `agefactor`, hvsgsm.py 485 -/
noncomputable def ageFactor (age : ℝ) : ℝ := 1 + (age / 70) ^ 4

/-- `b`, `e`, hvsgsm.py 486-487 -/
noncomputable def bcoef (age : ℝ) : ℝ := 9000 - 936 * √(ageFactor age)
noncomputable def ecoef (age : ℝ) : ℝ := √(ageFactor age) / 2000

/-- `pf`, hvsgsm.py 488 -/
noncomputable def pf (pig : ℝ) : ℝ := 1 / pig - 1

/-- `csa`, `cla`, hvsgsm.py 489-490 -/
noncomputable def csa (age pig : ℝ) : ℝ := 1 / (1 + ageFactor age / pf pig)
noncomputable def cla (age pig : ℝ) : ℝ := 1 / (1 + pf pig / ageFactor age)

/-- `pd`, `dp`, hvsgsm.py 491-492, with `d = 3.2` (484) -/
noncomputable def pdC (pupd : ℝ) : ℝ := 1 + (pupd / 3.2) ^ 2
noncomputable def dpC (pupd : ℝ) : ℝ := 1 + (3.2 / pupd) ^ 2

/-- third entry of `cs`, hvsgsm.py 493 -/
noncomputable def c3 (age pig : ℝ) : ℝ := cla age pig / ((1 + 25 * pig) * (1 + 1 / ageFactor age))

/-- `cs` of `psf_coef`, hvsgsm.py 493-494 -/
noncomputable def cs (age pig pupd : ℝ) : List ℝ :=
  [csa age pig / pdC pupd, csa age pig / dpC pupd, c3 age pig, cla age pig - c3 age pig]

/-- `bs` of `psf_coef`, hvsgsm.py 495-496 -/
noncomputable def bs (age pig pupd : ℝ) : List ℝ :=
  [pdC pupd / (bcoef age * pupd), dpC pupd * (ecoef age - 1 / (bcoef age * pupd)),
    1 / (10 + 60 * pig - 5 / ageFactor age), 1]

/-- `np.sum([f(b, c, phi) for b, c in zip(bs, cs)])`, hvsgsm.py 516, 525 -/
noncomputable def mix (f : ℝ → ℝ → ℝ → ℝ) (bcs : List (ℝ × ℝ)) (phi : ℝ) : ℝ :=
  (bcs.map fun bc => f bc.1 bc.2 phi).sum

/-- entry `k` of `lphi`, hvsgsm.py 513-514: `2 * n + 1` points from `-fwidth/2` to `fwidth/2` degrees -/
noncomputable def lphi (fwidth : ℝ) (n k : ℕ) : ℝ := (-(fwidth / 2) + k * (fwidth / (2 * n))) * π / 180

/-- `int(self.fwidth/.002/2)`, hvsgsm.py 514 -/
noncomputable def lphiN (fwidth : ℝ) : ℕ := ⌊fwidth / 0.002 / 2⌋₊

/-- `cap_eg`, hvsgsm.py 515-517 -/
noncomputable def capEg (fwidth : ℝ) (bcs : List (ℝ × ℝ)) : ℝ :=
  ((List.range (2 * lphiN fwidth + 1)).map fun k =>
    mix lb bcs (lphi fwidth (lphiN fwidth) k) * (lphi fwidth (lphiN fwidth) 1 - lphi fwidth (lphiN fwidth) 0)).sum

/-- the peak of the kernel, hvsgsm.py 530-532: `pk` is the entry found by `argmax` (`Verif.Model.GssKernel`) -/
def fixPeak {κ : Type} [Fintype κ] [DecidableEq κ] (ker : κ → ℝ) (pk : κ) (cap : ℝ) : κ → ℝ :=
  Function.update (Function.update ker pk 0) pk (cap - ∑ k, Function.update ker pk 0 k)

variable {ι κ : Type} [Fintype ι] [Fintype κ]

/-- `scipy.ndimage.convolve(img, ker)`: `src i k` is the pixel under entry `k` when the kernel is at `i` -/
def convolve (src : ι → κ → ι) (ker : κ → ℝ) (img : ι → ℝ) (i : ι) : ℝ := ∑ k, ker k * img (src i k)

/-- `base`, hvsgsm.py 520-522; `omega` is zero outside of the mask -/
noncomputable def psfBase (omega : ι → ℝ) (mask : ι → Bool) (cap : ℝ) (er : ι → ℝ) : ℝ :=
  (∑ i, if mask i then er i * omega i else 0) * (1 - cap) / ∑ i, if mask i then omega i else 0

/-- the end of `apply_psf`, hvsgsm.py 535-537 -/
noncomputable def applyPsf (src : ι → κ → ι) (ker : κ → ℝ) (omega : ι → ℝ) (mask : ι → Bool) (cap : ℝ) (er : ι → ℝ)
    (i : ι) : ℝ :=
  convolve src ker er i + psfBase omega mask cap er

/-! Pupil, eye movements, adaptation -/

/-- pupil diameter, hvsgsm.py 440-441 -/
noncomputable def pupd (age ev : ℝ) : ℝ :=
  5 - 3 * tanh (0.4 * logb 10 (ev / 1600)) - 0.043 * (age - 10) * exp (-ev / 174)

/-- pupil area, hvsgsm.py 442 -/
noncomputable def pupa (age ev : ℝ) : ℝ := π * (pupd age ev / 2) ^ 2

/-- `retinal_irradiance`, hvsgsm.py 445-453 -/
noncomputable def retinalIrradiance (f pa lum : ℝ) : ℝ := pa / f ^ 2 * lum

/-- the illuminance of `adapt`, hvsgsm.py 244-247 -/
def evEye (ctheta lum omega : ι → ℝ) (mask : ι → Bool) : ℝ := ∑ i, if mask i then ctheta i * lum i * omega i else 0

/-- `scipy.ndimage.gaussian_filter(img, sigma, truncate=...)` -/
abbrev Filter (ι : Type) := ℝ → ℝ → (ι → ℝ) → ι → ℝ

/-- contract of `gaussian_filter`: every output is an average of the inputs with weights that do not depend on the
image -/
def Averaging (G : Filter ι) : Prop :=
  ∀ s t i, ∃ w : ι → ℝ, (∀ j, 0 ≤ w j) ∧ ∑ j, w j = 1 ∧ ∀ v, G s t v i = ∑ j, w j * v j

/-- `apply_eye_movement_1`, hvsgsm.py 563-575; the default `truncate` is 4 -/
noncomputable def eyeMove1 (G : Filter ι) (pp : ℝ) (er : ι → ℝ) (i : ι) : ℝ :=
  0.62 * G (4.2341723424 * pp) 4 er i + 0.38 * G (14.1421356237 * pp) (30 * pp / (14.1421356237 * pp)) er i

/-- `t`, hvsgsm.py 601 -/
noncomputable def tau (f eg : ℝ) : ℝ := 0.1 / (eg * f ^ 2) ^ (0.12 : ℝ)

/-- `apply_eye_movement_2`, hvsgsm.py 601-608 -/
noncomputable def eyeMove2 (G : Filter ι) (pp f : ℝ) (er : ι → ℝ) (eg : ℝ) (i : ι) : ℝ :=
  G (2 * √(250 * tau f eg) * pp) 4 (G (2 * √(30 * tau f eg) * pp) 4 er) i

/-- `self.contrast`, hvsgsm.py 203 -/
noncomputable def contrast : ℝ := 0.8

/-- `log10er`, hvsgsm.py 632 -/
noncomputable def log10er (er : ℝ) : ℝ := if er > 0 then logb 10 er else 0

/-- `local_eye_adaptation`, hvsgsm.py 611-635, one pixel -/
noncomputable def localAdaptation (er eg : ℝ) : ℝ :=
  (10 : ℝ) ^ (contrast * log10er er + (1 - contrast) * logb 10 eg)

/-- `sigma`, hvsgsm.py 665 -/
noncomputable def halfSat (ea : ℝ) : ℝ := ((5.701055 : ℝ) ^ (1 / 2.55 : ℝ) + ea ^ (1 / 2.55 : ℝ)) ^ (2.55 : ℝ)

/-- `cone_response`, hvsgsm.py 638-668, one pixel -/
noncomputable def coneResponse (er ea : ℝ) : ℝ :=
  er ^ (0.74 : ℝ) / (er ^ (0.74 : ℝ) + halfSat ea ^ (0.74 : ℝ))

/-! Receptive fields -/

/-- hvsgsm.py 184-186 -/
noncomputable def emax : ℝ := 0.12
noncomputable def emin : ℝ := 0.009

/-- `vecc`, hvsgsm.py 403 -/
noncomputable def vecc (y : ℝ) : ℝ := if y ≥ 0 then y / 0.61111 else y / 0.94444

/-- `s_c`, hvsgsm.py 402-406, from the view coordinates of a pixel -/
noncomputable def sigmaC (vxy : ℝ × ℝ) : ℝ :=
  min (√(((vxy.1 * 2 - 1) / 1.05556) ^ 2 + vecc (vxy.2 * 2 - 1) ^ 2)) 1 * (emax - emin) + emin

/-- `steps[k]`, hvsgsm.py 699 -/
noncomputable def stp (k : ℕ) : ℝ := exp (log emin + k * ((log emax - log emin) / 30))

/-- `ubounds[k]`, hvsgsm.py 700: the upper bound of the last bin is 1 -/
noncomputable def ub (k : ℕ) : ℝ := if k = 30 then 1 else (stp (k + 1) + stp k) / 2

/-- `lbounds[k]`, hvsgsm.py 701 -/
noncomputable def lob (k : ℕ) : ℝ := if k = 0 then 0 else ub (k - 1)

open Classical in
/-- one turn of the loop, hvsgsm.py 702-708: centre and surround arrays -/
noncomputable def rfStep (G : Filter ι) (pp : ℝ) (sig : ι → ℝ) (vvm : ι → ℝ) (acc : (ι → ℝ) × (ι → ℝ)) (k : ℕ) :
    (ι → ℝ) × (ι → ℝ) :=
  (fun i => if lob k ≤ sig i ∧ sig i < ub k then G (stp k * pp * 60) 4 vvm i else acc.1 i,
   fun i => if lob k ≤ sig i ∧ sig i < ub k then G (stp k * pp * 60 * 3.5) 4 vvm i else acc.2 i)

/-- `self.fr_k`, hvsgsm.py 194 -/
noncomputable def frK : ℝ := 0.67

/-- `field_response`, hvsgsm.py 671-707 -/
noncomputable def fieldResponse (G : Filter ι) (pp : ℝ) (sig vvm : ι → ℝ) (i : ι) : ℝ :=
  ((List.range 31).foldl (rfStep G pp sig vvm) (fun _ => 0, fun _ => 0)).1 i -
    frK * ((List.range 31).foldl (rfStep G pp sig vvm) (fun _ => 0, fun _ => 0)).2 i

/-- `normalized_field_response`, hvsgsm.py 731-736, one pixel: on and off responses; `fr_a = 22`, `fr_b = 0.25` -/
noncomputable def logistic (inMask : Bool) (r : ℝ) : ℝ × ℝ :=
  if inMask then (1 / (1 + exp (-22 * (r - 0.25))), 1 / (1 + exp (22 * (r + 0.25)))) else (0, 0)

/-- the Minkowski sum, hvsgsm.py 766, `norm = 4` -/
noncomputable def gssRaw (omega : ι → ℝ) (rg : ι → ℝ × ℝ) : ℝ :=
  (∑ i, ((rg i).1 ^ 4 * omega i + (rg i).2 ^ 4 * omega i)) ^ (1 / 4 : ℝ)

/-- the polynomial of hvsgsm.py 768-772 at a point of its window -/
noncomputable def wpoly (x : ℝ) : ℝ :=
  33.12797281708 + 2.28728777265947 * x - 104.614198351476 * x ^ 2 - 275.450102180091 * x ^ 3 +
    1587.82553529394 * x ^ 4 - 2570.6813747583033 * x ^ 5 + 1837.1741161137818 * x ^ 6 - 499.849190278 * x ^ 7

/-- `p(self.ecc)`, hvsgsm.py 772-773: the domain is mapped linearly onto the window -/
noncomputable def weight (ecc : ℝ) : ℝ := wpoly ((ecc - 0.009) / (0.12 - 0.009))

/-- `gss`, hvsgsm.py 739-774 -/
noncomputable def gss (raw : Bool) (omega : ι → ℝ) (ecc : ℝ) (rg : ι → ℝ × ℝ) : ℝ :=
  if raw then gssRaw omega rg else gssRaw omega rg * weight ecc

/-- parameters of the observer and the switches of the constructor, hvsgsm.py 205-216 -/
structure Obs where
  f : ℝ
  psf : Bool
  adaptmove : Bool
  directmove : Bool
  raw : Bool

/-- what the loaded image fixes, and the kernel of the point spread function -/
structure Scene (ι κ : Type) where
  omega : ι → ℝ
  mask : ι → Bool
  sigma : ι → ℝ
  pp : ℝ
  src : ι → κ → ι
  ker : κ → ℝ
  cap : ℝ

/-- `e_r_psf`, hvsgsm.py 280-286 -/
noncomputable def afterPsf (o : Obs) (sc : Scene ι κ) (er : ι → ℝ) : ι → ℝ :=
  if o.psf then applyPsf sc.src sc.ker sc.omega sc.mask sc.cap er else er

/-- `e_rg`, hvsgsm.py 287-291 -/
noncomputable def forAdapt (o : Obs) (G : Filter ι) (sc : Scene ι κ) (er : ι → ℝ) : ι → ℝ :=
  if o.adaptmove then eyeMove1 G sc.pp (afterPsf o sc er) else afterPsf o sc er

/-- `e_rc`, hvsgsm.py 292-296 -/
noncomputable def forCone (o : Obs) (G : Filter ι) (sc : Scene ι κ) (er : ι → ℝ) (eg : ℝ) : ι → ℝ :=
  if o.directmove then eyeMove2 G sc.pp o.f (afterPsf o sc er) eg else afterPsf o sc er

/-- `vvm`, hvsgsm.py 297-299 -/
noncomputable def ratio (o : Obs) (G : Filter ι) (sc : Scene ι κ) (er : ι → ℝ) (eg : ℝ) (i : ι) : ℝ :=
  coneResponse (forCone o G sc er eg i) (localAdaptation (forAdapt o G sc er i) eg)

/-- `glare_response`, hvsgsm.py 251-310 -/
noncomputable def glareResponse (o : Obs) (G : Filter ι) (sc : Scene ι κ) (img : ι → ℝ) (eg pa : ℝ) (i : ι) : ℝ × ℝ :=
  logistic (sc.mask i)
    (fieldResponse G sc.pp sc.sigma (ratio o G sc (fun j => retinalIrradiance o.f pa (img j)) eg) i)

/-- `compute`, hvsgsm.py 312-335 with `adapt` (239-249) given the illuminance -/
noncomputable def compute (o : Obs) (G : Filter ι) (sc : Scene ι κ) (age ev ecc : ℝ) (img : ι → ℝ) : ℝ :=
  gss o.raw sc.omega ecc
    (glareResponse o G sc img (retinalIrradiance o.f (pupa age ev) (ev / π)) (pupa age ev))

/-! Loading images -/

/-- An image as read by `hdr2array`, scaled. -/
structure Pic where
  rows : ℕ
  cols : ℕ
  px : ℕ → ℕ → ℝ

/-- `self._vecs`, hvsgsm.py 351; views of one hemisphere -/
noncomputable def raysOf (v : View) (r i j : ℕ) : V3 := v.pixel2ray r (pixelCentre i j)

/-- `self._mask`, hvsgsm.py 353 -/
def maskOf (v : View) (r i j : ℕ) : Prop := v.inView 0 (raysOf v r i j)

open Classical in
/-- `self._omega`, hvsgsm.py 352, 355 -/
noncomputable def omegaOf (v : View) (r i j : ℕ) : ℝ :=
  if maskOf v r i j then v.pixel2omega r (pixelCentre i j) else 0

/-- `self._ctheta`, hvsgsm.py 356-357 -/
noncomputable def cthetaOf (v : View) (r i j : ℕ) : ℝ := max 0 (Geo.ctheta v.dxyz (raysOf v r i j))

/-- `self._sigma_c`, hvsgsm.py 400-407 -/
noncomputable def sigmaOf (v : View) (r i j : ℕ) : ℝ := sigmaC (v.xyz2vxy (raysOf v r i j))

/-- State of a `GSS` instance: `_res` is 0 before the first image; `gres` is the side of the arrays `vecs`, `omega`
and `mask`, which can differ from `res` after a failed load. -/
structure St where
  vm : View
  res : ℕ
  lum : Option Pic
  gres : ℕ
  vecs : ℕ → ℕ → V3
  omega : ℕ → ℕ → ℝ
  mask : ℕ → ℕ → Prop
  ctheta : ℕ → ℕ → ℝ
  pp : ℝ
  sigma : ℕ → ℕ → ℝ
  ecc : ℝ

/-- state after the constructor has set the view, hvsgsm.py 215-227; the arrays are not there yet -/
noncomputable def start (v : View) : St :=
  ⟨v, 0, none, 0, fun _ _ => V3.zero, fun _ _ => 0, fun _ _ => False, fun _ _ => 0, 0, fun _ _ => 0, 0⟩

/-- weights of the average, hvsgsm.py 361-362; numpy broadcasts an image of one column and a single solid angle -/
noncomputable def wgt (s : St) (p : Pic) (i j : ℕ) : ℝ :=
  p.px i (if p.cols = 1 then 0 else j) ^ 4 * (if s.gres = 1 then s.omega 0 0 else s.omega i j)

/-- sum over the pixels of an `r * r` array -/
noncomputable def sumPx (r : ℕ) (f : ℕ → ℕ → ℝ) : ℝ := ∑ i ∈ Finset.range r, ∑ j ∈ Finset.range r, f i j

/-- one axis of two arrays broadcasts -/
def bcast (a b : ℕ) : Prop := a = b ∨ a = 1 ∨ b = 1

/-- the product of the image and the solid angles has the shape of the widths, which is `(rows, rows)` -/
def shapesOk (s : St) (p : Pic) : Prop := (s.gres = p.rows ∨ s.gres = 1) ∧ (p.cols = p.rows ∨ p.cols = 1 ∧ s.gres = p.rows)

open Classical in
/-- hvsgsm.py 361-362: `np.average` with the image, solid angles and widths in place. Arrays that do not broadcast are
a ValueError, weights of another shape than the widths a TypeError. -/
noncomputable def setEcc (s : St) (p : Pic) : St × Option PyErr :=
  if ¬ (bcast p.rows s.gres ∧ bcast p.cols s.gres) then (s, some .ValueError)
  else if ¬ shapesOk s p then (s, some .TypeError)
  else if sumPx p.rows (wgt s p) = 0 then (s, some .ZeroDivisionError)
  else ({ s with ecc := sumPx p.rows (fun i j => s.sigma i j * wgt s p i j) / sumPx p.rows (wgt s p) }, none)

/-- hvsgsm.py 351-355: what is assigned before the shape of the image is looked at -/
noncomputable def geoA (s : St) (r : ℕ) : St :=
  { s with gres := r, vecs := raysOf s.vm r, omega := omegaOf s.vm r, mask := maskOf s.vm r }

/-- hvsgsm.py 356-360 -/
noncomputable def geoB (s : St) (r : ℕ) : St :=
  { s with ctheta := cthetaOf s.vm r, res := r, pp := r / (60 * s.vm.va), sigma := sigmaOf s.vm r }

/-- the setter of `lum`, hvsgsm.py 345-362, after the file has been read: new state and exception -/
noncomputable def load (s : St) (p : Pic) : St × Option PyErr :=
  if s.res ≠ p.rows then
    if p.rows ≠ p.cols then (geoA { s with lum := some p } p.rows, some .ValueError)
    else setEcc (geoB (geoA { s with lum := some p } p.rows) p.rows) p
  else setEcc { s with lum := some p } p

/-- the setter of `vm` given a mapper, hvsgsm.py 414-424 -/
def setVm (s : St) (v : View) : St := { s with vm := v }

/-- What a user can do to an instance. -/
inductive Op
  | view (v : View)
  | image (p : Pic)

/-- One operation; the exception of a failed load is caught by the caller. -/
noncomputable def step (s : St) : Op → St
  | .view v => setVm s v
  | .image p => (load s p).1

/-- A history. -/
noncomputable def run (s : St) (ops : List Op) : St := ops.foldl step s

/-! The constructor -/

/-- Answer of `getinfo` about one name: text, error text, dimensions, and the lines of the file read as text. -/
structure File where
  hd : Str
  err : Str
  dims : Str
  lines : Except PyErr (List Str)

/-- an exception caught by `except ValueError` (UnicodeDecodeError is a subclass) -/
def isValueError : PyErr → Bool
  | .ValueError => true
  | .UnicodeDecodeError => true
  | _ => false

/-- the setter of `vm` given the result of `hdr2vm`, hvsgsm.py 414-424: `None` is looked up as a file name -/
noncomputable def setterVm {α : Type} (io : ViewHdr.NumIO α) (pint : Str → Option ℤ) (noneFile : File)
    (v : Option View) : Except PyErr View :=
  match v with
  | some v => .ok v
  | none =>
    match ViewHdr.hdr2vm io pint noneFile.hd noneFile.err noneFile.dims with
    | .ok (some p) => .ok p.1
    | .ok none => .ok (dfltView 180)
    | .error e => if isValueError e then .ok (dfltView 180) else .error e

/-- an exception caught by `except IOError` -/
def isIOError : PyErr → Bool
  | .IOError => true
  | .FileNotFoundError => true
  | _ => false

/-- the view set by `GSS(view)` for a file name, hvsgsm.py 229-237, and whether the image is loaded afterwards -/
noncomputable def initView {α : Type} (io : ViewHdr.NumIO α) (pint : Str → Option ℤ) (noneFile f : File) :
    Except PyErr (View × Bool) :=
  match (ViewHdr.hdr2vm io pint f.hd f.err f.dims).bind fun r => setterVm io pint noneFile (r.map (·.1)) with
  | .ok v => .ok (v, true)
  | .error e =>
    if isValueError e then .ok (dfltView 180, false)
    else if isIOError e then
      (f.lines.bind fun ls => ViewHdr.vfToVm io ls).map fun v => (v, false)
    else .error e

/-! `gss_compute` -/

/-- `process_gss`, hvsgsm.py 58-67: `score` stands for `compute`, a function of the instance and the illuminance; the
file may be unreadable. Saving the response image is not modelled. -/
noncomputable def processGss {R : Type} (score : St → Option ℝ → R) (s : St) (img : Except PyErr Pic)
    (illum : Option ℝ) : Except PyErr R :=
  match img with
  | .error e => .error e
  | .ok p =>
    match (load s p).2 with
    | some e => .error e
    | none => .ok (score (load s p).1 illum)

/-- the objects passed to `pool_call` by `gss_compute` -/
inductive Arg
  | pair (img : Except PyErr Pic) (illum : Option ℝ)
  | img (img : Except PyErr Pic)
  | illum (e : Option ℝ)
  | ins (s : St)

/-- the call of `pool_call`, hvsgsm.py 54-55. A process pool pickles the instance with every task and `pool_call`
without workers is not used by `gss_compute`, so every task starts from the instance as constructed. -/
noncomputable def gssSetup {R : Type} (score : St → Option ℝ → R) (s : St) : Pool.Setup Arg PyErr R where
  func
    | [.img i, .illum e, .ins s] => processGss score s i e
    | _ => .error .TypeError
  unpack
    | .pair i e => .ok [.img i, .illum e]
    | _ => .error .TypeError
  expandarg := true
  fixed := [.ins s]

/-- the list built by `zip(imgs, illums)` or `zip(imgs, [None]*len(imgs))`, hvsgsm.py 50-53 -/
def gssArgs (imgs : List (Except PyErr Pic)) : Option (List ℝ) → List Arg
  | some ills => (imgs.zip ills).map fun a => .pair a.1 (some a.2)
  | none => imgs.map fun a => .pair a none

end Verif.Gss
