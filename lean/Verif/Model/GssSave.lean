import Verif.Model.Files
import Verif.Model.Names

/-! The response images saved by `gss_compute(..., save=True)`, raytools/evaluate/hvsgsm.py 22-67, 328-331, and by
`raytools metric ... --gssimage`, raytools/cli.py 131-144. `C` is the content of files, `P` the pixels of a picture. -/

namespace Verif.GssSave
open Verif.Py Verif.Names Verif.Files

variable {C P : Type}

/-- `s.rsplit("/")[-1]` -/
def lastPart (s : Str) : Str := (splitOn '/' s).getLastD []

/-- `saverg`, hvsgsm.py 61-64 -/
def saveName (suffix : Str) (outdir : Option Str) (img : Str) : Str :=
  match outdir with
  | none => stem img ++ suffix
  | some d => d ++ '/' :: lastPart (stem img ++ suffix)

/-- `process_gss(img, illum, ins, outf=True)` as a program on files, hvsgsm.py 58-67, 328-331: one process reads the image, `resp` are
the pixels of the response or the exception of loading the image or of the model, `enc` is the picture without header lines -/
def gssJob (read : Option C → Except PyErr P) (resp : Str → P → Except PyErr P) (enc : P → C) (suffix : Str) (outdir : Option Str)
    (img : Str) : Job C where
  inp := img
  out := some (saveName suffix outdir img)
  reads := 1
  plan seen := match (read (seen.getD 0 none)).bind (resp img) with
    | .error e => .refuse e
    | .ok px => .write (enc px)

/-- the tasks of `gss_compute`, hvsgsm.py 49-55 -/
def gssJobs (read : Option C → Except PyErr P) (resp : Str → P → Except PyErr P) (enc : P → C) (suffix : Str) (outdir : Option Str)
    (imgs : List Str) : List (Job C) := imgs.map (gssJob read resp enc suffix outdir)

/-- `"_rg.hdr"`, hvsgsm.py 22 -/
def dfltSuffix : Str := "_rg.hdr".toList

/-- `raytools metric gss gssnb --gssimage`, cli.py 131-144: first all tasks of one model, then all tasks of the other, with the same
names; `es` and `es'` are the schedules. The second call is not reached when the first raises. -/
def bothRuns (blank : C) (read : Option C → Except PyErr P) (full nb : Str → P → Except PyErr P) (enc : P → C) (imgs : List Str)
    (s : Store C) (es es' : List (Ev C)) : Store C :=
  match gather (runAll blank (gssJobs read full enc dfltSuffix none imgs) s es).phase 0 (gssJobs read full enc dfltSuffix none imgs) with
  | .error _ => (runAll blank (gssJobs read full enc dfltSuffix none imgs) s es).store
  | .ok _ => (runAll blank (gssJobs read nb enc dfltSuffix none imgs)
      (runAll blank (gssJobs read full enc dfltSuffix none imgs) s es).store es').store

end Verif.GssSave
