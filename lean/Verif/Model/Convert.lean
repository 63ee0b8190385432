import Verif.Model.ViewHeader
import Verif.Model.Project
import Verif.Model.Shell
import Verif.Model.Names
import Verif.Model.Files
/-!
# The conversions of image files (raytools/imagetools.py 41-47, 63-74, 157-193, raytools/io.py 122-161, 206-267, 305-327,
raytools/cli.py 150-241)

The pixel work (`array_uv2ang` and so on, modelled in `Project.lean` and `Align.lean`) is a parameter here; the header, the
names, the order of reading and writing and the errors are not. Paths are passed to the tools unchanged (C118 says when).
-/
namespace Verif.Conv
open Verif.Py Verif.Header Verif.ViewHdr Verif.Map Verif.Files

variable {α P : Type}

/-- a file: empty, or a Radiance picture with its header lines and pixels -/
inductive File (P : Type)
  | blank
  | image (lines : List Str) (px : P)

/-- what lies outside: text wrapping, numbers as text, what `getinfo -d` prints behind the path, the line `pvalue` adds about
itself -/
structure Env (α P : Type) where
  wrap : ℕ → Str → Str → List Str
  io : NumIO α
  num : ℝ → α
  pint : Str → Option ℤ
  dims : P → Str
  pval : P → Str

/-- `pat in s` -/
def has (pat s : Str) : Bool := (afterLast pat s).isSome

/-- what `getinfo path` prints for a picture: the path and a colon, then every header line behind a tabulator -/
def getinfoText (path : Str) (lines : List Str) : Str := path ++ ":\n\t".toList ++ lines.flatMap (· ++ "\n\t".toList)

/-- standard output and error output of `getinfo path` -/
def getinfo (path : Str) : Option (File P) → Str × Str
  | none => (path ++ ": cannot open\n".toList, [])
  | some .blank => (path ++ ":\n\t".toList, "bad header!\n".toList)
  | some (.image lines _) => (getinfoText path lines, [])

/-- io.py 321: the lines without those that match `.*#?RADIANCE.*` -/
def headerLines (text : Str) : List Str := (splitlines (strip text)).filter fun l => !has "RADIANCE".toList l

/-- `hdr_header(imgf)`, io.py 305-327, without `clean` and `items` -/
def hdrHeader (path : Str) (f : Option (File P)) : Except PyErr (List Str) :=
  if has "bad header!".toList (getinfo path f).2 then .error .IOError
  else if has "cannot open".toList (getinfo path f).1 then .error .FileNotFoundError
  else .ok (headerLines (getinfo path f).1)

/-- the pixels of `hdr2carray(imgf)`, io.py 206-220, 261-264 -/
def pixels : Option (File P) → Except PyErr P
  | some (.image _ px) => .ok px
  | _ => .error .ValueError

/-- output of `getinfo -d path` -/
def dimsText (env : Env α P) (path : Str) : Option (File P) → Str
  | none => path ++ ": cannot open\n".toList
  | some .blank => path ++ ": \n".toList
  | some (.image _ px) => path ++ ": ".toList ++ env.dims px ++ "\n".toList

/-- `hdr2vm(imgf)`, imagetools.py 233-271; the file is read twice -/
noncomputable def fileView (env : Env α P) (path : Str) (a b : Option (File P)) : Except PyErr (Option View) :=
  (hdr2vm env.io env.pint (getinfo path a).1 (getinfo path a).2 (dimsText env path b)).map (Option.map Prod.fst)

/-- the picture written by `_array2hdr(..., clean=True)` once the output is open, io.py 143-156: `pvalue` writes its own
lines, `getinfo -a` adds the others -/
def encode (env : Env α P) (header : List Str) (px : P) : Except PyErr (File P) :=
  ((cleanHeader env.wrap header).bind Shell.addLinesArgv).map fun argv =>
    .image ("#?RADIANCE".toList :: env.pval px :: "FORMAT=32-bit_rle_rgbe".toList :: argv.drop 2) px

/-- the end of every conversion: errors before `_array2hdr` leave the output alone, those inside find it open -/
def finish (env : Env α P) : Except PyErr (List Str × P) → Plan (File P)
  | .error e => .refuse e
  | .ok (header, px) => match encode env header px with
    | .error e => .spoil e
    | .ok f => .write f

/-- what process number `k` saw -/
def saw (seen : List (Option (File P))) (k : ℕ) : Option (File P) := seen.getD k none

/-- `hdr2carray(imgf, header=True)`, io.py 248-267, when its two processes saw `a` and `b` -/
def readImage (path : Str) (a b : Option (File P)) : Except PyErr (P × List Str) :=
  (pixels a).bind fun px => (hdrHeader path b).map fun h => (px, h)

/-- `hdr_uv2ang`, imagetools.py 41-47 -/
def uv2angJob (env : Env α P) (conv : P → Except PyErr P) (stdout : Bool) (path : Str) : Job (File P) where
  inp := path
  out := if stdout then none else some (Names.angName path)
  reads := 2
  plan seen := finish env ((readImage path (saw seen 0) (saw seen 1)).bind fun r => (conv r.1).map fun img => (r.2, img))

/-- the mapper of `hdr_ang2uv`, imagetools.py 66-70 -/
noncomputable def ang2uvView (env : Env α P) (useview : Bool) (path : Str) (a b : Option (File P)) : Except PyErr View :=
  if useview then (fileView env path a b).map fun v => v.getD (dfltView 180) else .ok (dfltView 180)

/-- `hdr_ang2uv`, imagetools.py 63-74 -/
noncomputable def ang2uvJob (env : Env α P) (conv : View → P → Except PyErr P) (useview stdout : Bool) (path : Str) :
    Job (File P) where
  inp := path
  out := if stdout then none else some (Names.uvName path)
  reads := 4
  plan seen := finish env ((ang2uvView env useview path (saw seen 0) (saw seen 1)).bind fun v =>
    (readImage path (saw seen 2) (saw seen 3)).bind fun r => (conv v r.1).map fun img => (r.2, img))

/-- the view angle of `hdr_solid2ang`, imagetools.py 160-165 -/
noncomputable def solidAngle (env : Env α P) (viewangle : Option ℝ) (path : Str) (a b : Option (File P)) : Except PyErr ℝ :=
  match viewangle with
  | some va => .ok va
  | none => (fileView env path a b).map fun v => match v with
    | none => 180
    | some m => m.va

/-- `vmo.header()`, angularmixin.py 121-129 with the mappers of imagetools.py 146-151: both kinds of mapper inherit the same
method, whose projection is `vta` unless the caller gives another one -/
noncomputable def solidHeader (env : Env α P) (va : ℝ) : Str :=
  header env.io (env.num va) (env.num 0, env.num 1, env.num 0) (env.num 0, env.num 0, env.num 0) false "vta".toList

/-- `hdr_solid2ang`, imagetools.py 157-174 -/
noncomputable def solidJob (env : Env α P) (conv : Bool → ℝ → P → Except PyErr P) (reverse : Bool) (viewangle : Option ℝ)
    (stdout : Bool) (path : Str) : Job (File P) where
  inp := path
  out := if stdout then none else some (Names.solidName reverse path)
  reads := 4
  plan seen := finish env ((readImage path (saw seen 0) (saw seen 1)).bind fun r =>
    (solidAngle env viewangle path (saw seen 2) (saw seen 3)).bind fun va =>
      (conv reverse va r.1).map fun img => (r.2 ++ [solidHeader env va], img))

/-- `hdr_rotate`, imagetools.py 177-193; `note` is the line it adds to the header. A short centre raises before anything is
read. -/
def rotateJob (env : Env α P) (conv : P → Except PyErr P) (note : Str) (rotate : ℚ) (center : Option (List ℤ))
    (first stdout : Bool) (path : Str) : Job (File P) :=
  match Names.rotName rotate center first path with
  | .error e => ⟨path, none, 0, fun _ => .refuse e⟩
  | .ok out => ⟨path, if stdout then none else some out, 2, fun seen =>
      finish env ((readImage path (saw seen 0) (saw seen 1)).bind fun r => (conv r.1).map fun img => (r.2 ++ [note], img))⟩

/-- `cleanheader`, cli.py 235-241: reads the picture and writes it to standard output -/
def cleanJob (env : Env α P) (path : Str) : Job (File P) where
  inp := path
  out := none
  reads := 2
  plan seen := finish env ((readImage path (saw seen 0) (saw seen 1)).map fun r => (r.2, r.1))

/-- `project`, cli.py 150-173: standard output is only used for a single image -/
noncomputable def projectJobs (env : Env α P) (ang : P → Except PyErr P) (uv : View → P → Except PyErr P)
    (uv2ang useview stdout : Bool) (imgs : List Str) : List (Job (File P)) :=
  imgs.map fun p =>
    if uv2ang then uv2angJob env ang (stdout && imgs.length == 1) p
    else ang2uvJob env uv useview (stdout && imgs.length == 1) p

/-- `align`, cli.py 176-205 -/
def alignJobs (env : Env α P) (conv : P → Except PyErr P) (note : Str) (rotate : ℚ) (center : Option (List ℤ))
    (first stdout : Bool) (imgs : List Str) : List (Job (File P)) :=
  imgs.map (rotateJob env conv note rotate center first (stdout && imgs.length == 1))

/-- `solid2ang`, cli.py 208-232 -/
noncomputable def solidJobs (env : Env α P) (conv : Bool → ℝ → P → Except PyErr P) (reverse : Bool) (viewangle : Option ℝ)
    (stdout : Bool) (imgs : List Str) : List (Job (File P)) :=
  imgs.map (solidJob env conv reverse viewangle (stdout && imgs.length == 1))

end Verif.Conv
