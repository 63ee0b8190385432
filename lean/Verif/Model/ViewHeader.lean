import Verif.Model.Header
import Verif.Model.ViewMapper

/-! View descriptions in image headers and view files: raytools/mapper/angularmixin.py 121-129 and
raytools/imagetools.py 209-271. -/

namespace Verif.ViewHdr
open Verif.Py Verif.Geo Verif.Map Verif.Header

/-- how numbers are printed by `str.format` and read by `float`; `val` is the number meant -/
structure NumIO (α : Type) where
  fmt : α → Str
  parse : Str → Option α
  val : α → ℝ

/-- contract of Python's number formatting: `float(format(x)) == x`, the text is not empty and has no blank and
no letter `v` or `V` -/
structure NumOk {α : Type} (io : NumIO α) : Prop where
  rt : ∀ x, io.parse (io.fmt x) = some x
  ne : ∀ x, io.fmt x ≠ []
  nosp : ∀ x, ∀ c ∈ io.fmt x, isSpace c = false
  nov : ∀ x, 'v' ∉ io.fmt x ∧ 'V' ∉ io.fmt x

/-- three printed numbers, each after a blank -/
def three {α : Type} (io : NumIO α) (d : α × α × α) : Str :=
  ' ' :: io.fmt d.1 ++ ' ' :: io.fmt d.2.1 ++ ' ' :: io.fmt d.2.2

/-- `AngularMixin.header`, angularmixin.py 121-129; `up` is `np.allclose(self.dxyz, (0, 0, 1))`, `proj` the
`viewproj` argument -/
def header {α : Type} (io : NumIO α) (va : α) (d pt : α × α × α) (up : Bool) (proj : Str) : Str :=
  "VIEW= -".toList ++ proj ++ " -vv ".toList ++ io.fmt va ++ " -vh ".toList ++ io.fmt va ++ " -vd".toList
    ++ three io d ++ " -vp".toList ++ three io pt ++ " -vu ".toList
    ++ (if up then "0 1 0".toList else "0 0 1".toList)

/-- `float(vp[i])` -/
def numAt {α : Type} (io : NumIO α) (vp : List Str) (i : ℕ) : Except PyErr α :=
  match vp[i]? with
  | none => .error .IndexError
  | some s => match io.parse s with
    | none => .error .ValueError
    | some a => .ok a

/-- `[float(vp[i]) for i in range(j + 1, j + 4)]` -/
def tripleAt {α : Type} (io : NumIO α) (vp : List Str) (j : ℕ) : Except PyErr (α × α × α) := do
  let a ← numAt io vp (j + 1)
  let b ← numAt io vp (j + 2)
  let c ← numAt io vp (j + 3)
  return (a, b, c)

/-- `vp.index(t)` (`none`: `ValueError`) -/
def index (t : Str) (vp : List Str) : Option ℕ := vp.findIdx? (· == t)

/-- the vector meant -/
def vec {α : Type} (io : NumIO α) (d : α × α × α) : V3 := ⟨io.val d.1, io.val d.2.1, io.val d.2.2⟩

/-- `float(vp[vp.index("-vh") + 1])`, imagetools.py 215, 250 (an absent `-vh` is not caught) -/
def angleAt {α : Type} (io : NumIO α) (vp : List Str) : Except PyErr α :=
  match index "-vh".toList vp with
  | none => .error .ValueError
  | some i => numAt io vp (i + 1)

/-- imagetools.py 251-256, 257-262: an optional triple with its default -/
def optTriple {α : Type} (io : NumIO α) (t : Str) (dflt : V3) (vp : List Str) : Except PyErr V3 :=
  match index t vp with
  | none => .ok dflt
  | some j => (tripleAt io vp j).map (vec io)

/-- `t.splitlines()[0].split()` -/
def firstTokens (t : Str) : Except PyErr (List Str) :=
  match splitlines t with
  | [] => .error .IndexError
  | l :: _ => .ok (tokens l)

/-- imagetools.py 244-248: `vp` (`none` when neither marker is in the header) -/
def viewTokens (hd : Str) : Except PyErr (Option (List Str)) :=
  match afterLast "VIEW= -vta".toList hd with
  | some t => (firstTokens t).map some
  | none => match afterLast "rvu -vta".toList hd with
    | some t => (firstTokens t).map some
    | none => .ok none

/-- the loop of `img_size`, imagetools.py 225-229, over the words from the second one on -/
def sizeGo (pint : Str → Option ℤ) : Str → List Str → ℤ × ℤ → Except PyErr (ℤ × ℤ)
  | _, [], xy => .ok xy
  | prev, w :: ws, xy =>
    if 'X' ∈ prev then
      match pint w with
      | none => .error .ValueError
      | some x => sizeGo pint w ws (x, xy.2)
    else if 'Y' ∈ prev then
      match pint w with
      | none => .error .ValueError
      | some y => sizeGo pint w ws (xy.1, y)
    else sizeGo pint w ws xy

/-- `img_size`, imagetools.py 221-230, from the output of `getinfo -d` -/
def imgSize (pint : Str → Option ℤ) (out : Str) : Except PyErr (ℤ × ℤ) :=
  match tokens out with
  | _ :: w :: ws => sizeGo pint w ws (1, 1)
  | _ => .ok (1, 1)

/-- imagetools.py 249-264: the mapper and the view point from the words of the view; a zero height divides by
zero -/
noncomputable def readView {α : Type} (io : NumIO α) (vp : List Str) (size : Except PyErr (ℤ × ℤ)) :
    Except PyErr (View × V3) := do
  let a ← angleAt io vp
  let d ← optTriple io "-vd".toList ⟨0, 1, 0⟩ vp
  let p ← optTriple io "-vp".toList ⟨0, 0, 0⟩ vp
  let s ← size
  if s.2 = 0 then .error .ZeroDivisionError else .ok (View.new d (io.val a * s.1 / s.2), p)

/-- `hdr2vm`, imagetools.py 233-271, from the outputs of `getinfo` (text and error text) and `getinfo -d` -/
noncomputable def hdr2vm {α : Type} (io : NumIO α) (pint : Str → Option ℤ) (hd err dims : Str) :
    Except PyErr (Option (View × V3)) :=
  if (afterLast "bad header!".toList err).isSome then .error .IOError
  else if (afterLast "cannot open".toList hd).isSome then .error .FileNotFoundError
  else do
    match ← viewTokens hd with
    | none => return none
    | some vp => return some (← readView io vp (imgSize pint dims))

/-- `vf_to_vm`, imagetools.py 209-218, from the lines of the file -/
noncomputable def vfToVm {α : Type} (io : NumIO α) (lines : List Str) : Except PyErr View :=
  match (lines.filter fun l => (afterLast "-vta".toList l).isSome).getLast? with
  | none => .error .ValueError
  | some l => do
    let a ← angleAt io (tokens l)
    let d ← (match index "-vd".toList (tokens l) with
      | none => .error .ValueError
      | some j => (tripleAt io (tokens l) j).map (vec io))
    return View.new d (io.val a)

end Verif.ViewHdr
