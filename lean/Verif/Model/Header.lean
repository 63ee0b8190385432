import Verif.Model.Py
/-!
# Model of `CleanHeader`, `clean_header` and `header_items` (raytools/io.py 270-295, 394-573)

Python's nested lists of text and `dict(name, depth, content)` are a `Forest`. The list `cs` of open sections always is
the chain "last section of the root list, last section of its content, ..." because a section is pushed exactly when it is
appended, and lines are only inserted in front of sections; the model therefore keeps the depths of the open sections
(`cs`) and addresses the current content by the number of levels. `Verif.Header.wf_run` proves that this chain always
exists.
-/
namespace Verif.Header
open Verif.Py

/-! ## text helpers -/

/-- `str.splitlines()`. -/
def splitlinesGo (cur : Str) : Str → List Str
  | [] => if cur.isEmpty then [] else [cur.reverse]
  | '\r' :: '\n' :: cs => cur.reverse :: splitlinesGo [] cs
  | c :: cs => if isLineBreak c then cur.reverse :: splitlinesGo [] cs else splitlinesGo (c :: cur) cs

/-- `str.splitlines()`. -/
def splitlines (s : Str) : List Str := splitlinesGo [] s

/-- The text behind the last occurrence of `pat` in `s`. -/
def afterLast (pat : Str) : Str → Option Str
  | [] => if pat.isEmpty then some [] else none
  | c :: cs =>
    match afterLast pat cs with
    | some t => some t
    | none => if pat.isPrefixOf (c :: cs) then some ((c :: cs).drop pat.length) else none

/-- One run of non-space characters under `re.sub(r"\S*clasp_tmp[^\s:]*", "<stdin>", .)`: the greedy `\S*` reaches the
last occurrence in the run, `[^\s:]*` then eats up to the next colon or the end of the run. -/
def subRun (r : Str) : Str :=
  match afterLast "clasp_tmp".toList r with
  | none => r
  | some t => "<stdin>".toList ++ t.dropWhile (· ≠ ':')

/-- raytools/io.py 469, applied run by run (`cur`: the current run, reversed). -/
def subClaspGo (cur : Str) : Str → Str
  | [] => subRun cur.reverse
  | c :: cs => if isSpace c then subRun cur.reverse ++ c :: subClaspGo [] cs else subClaspGo (c :: cur) cs

/-- raytools/io.py 468-469: the stripped line with temporary file names replaced. -/
def cleanLine (h : Str) : Str := subClaspGo [] (strip h)

/-- raytools/io.py 471-474 with `spacespertab = 4`: length of the inset after replacing four spaces by a tab and deleting the
other spaces. -/
def insetLen : Str → Nat
  | ' ' :: ' ' :: ' ' :: ' ' :: r => insetLen r + 1
  | ' ' :: r => insetLen r
  | _ :: r => insetLen r + 1
  | [] => 0

/-- raytools/io.py 471-474: depth of a line. -/
def lineDepth (h : Str) : Nat := insetLen (h.takeWhile isSpace)

/-- `re.match(r"(.+):$", cl)` for text without line feed. -/
def isSectionText (cl : Str) : Bool := 2 ≤ cl.length && cl.getLast? = some ':'

/-- `s.split("=", 1)` when "=" occurs, else `s.split(None, 1)`; `none` when this gives fewer than two pieces
(the ValueError of the tuple assignment). -/
def splitKV (cl : Str) : Option (Str × Str) :=
  if '=' ∈ cl then some (cl.takeWhile (· ≠ '='), (cl.dropWhile (· ≠ '=')).tail)
  else
    let s := lstrip cl
    let rest := lstrip (s.dropWhile (fun c => !isSpace c))
    if rest.isEmpty then none else some (s.takeWhile (fun c => !isSpace c), rest)

/-- raytools/io.py 495-502: key and value of a line. -/
def keyVal (cl : Str) : Str × Str := (splitKV cl).getD (cl, [])

/-- raytools/io.py 495-497, 505-506: the separator. -/
def sepOf (cl : Str) : Char := if '=' ∈ cl then '=' else ' '

/-- raytools/io.py 527: the normalised text `f"{key}{sep}{val}"`. -/
def norm (cl : Str) : Str := (keyVal cl).1 ++ sepOf cl :: (keyVal cl).2

/-- raytools/io.py 476: `cl.rsplit("/", 1)[-1][:-1]`. -/
def sectionName (cl : Str) : Str := ((cl.reverse.takeWhile (· ≠ '/')).reverse).dropLast

/-! ## nested content -/

/-- A list whose entries are text or sections. -/
inductive Forest
  | nil
  | str (s : Str) (rest : Forest)
  | sec (name : Str) (depth : Nat) (content rest : Forest)
  deriving DecidableEq

namespace Forest

/-- `l.append(text)`. -/
def pushStr (s : Str) : Forest → Forest
  | nil => str s nil
  | str t r => str t (pushStr s r)
  | sec n d c r => sec n d c (pushStr s r)

/-- `l.append(dict(name=.., depth=.., content=[]))`. -/
def pushSec (n : Str) (d : Nat) : Forest → Forest
  | nil => sec n d nil nil
  | str t r => str t (pushSec n d r)
  | sec m e c r => sec m e c (pushSec n d r)

/-- Some entry is a section. -/
def hasSec : Forest → Bool
  | nil => false
  | str _ r => hasSec r
  | sec _ _ _ _ => true

/-- `not np.any([type(i) == str for i in l])`. -/
def allSec : Forest → Bool
  | nil => true
  | str _ _ => false
  | sec _ _ _ r => allSec r

/-- `l[-1] += t`: IndexError on an empty list, TypeError when the last entry is a section. -/
def extendLast (t : Str) : Forest → Except PyErr Forest
  | nil => .error .IndexError
  | str s nil => .ok (str (s ++ t) nil)
  | str s r => do return str s (← extendLast t r)
  | sec _ _ _ nil => .error .TypeError
  | sec n d c r => do return sec n d c (← extendLast t r)

/-- Apply `g` to the content of the last section of a list (KeyError: there is none; never happens, `wf_run`). -/
def modLastSec (g : Forest → Except PyErr Forest) : Forest → Except PyErr Forest
  | nil => .error .KeyError
  | str s r => do return str s (← modLastSec g r)
  | sec n d c r => if hasSec r then do return sec n d c (← modLastSec g r) else do return sec n d (← g c) r

/-- Apply `f` to the current content: `k` open sections deep. -/
def modAt : Nat → (Forest → Except PyErr Forest) → Forest → Except PyErr Forest
  | 0, f => f
  | k + 1, f => modLastSec (modAt k f)

/-- Content of the last section. -/
def lastSec : Forest → Option (Nat × Forest)
  | nil => none
  | str _ r => lastSec r
  | sec _ d c r => match lastSec r with
    | some x => some x
    | none => some (d, c)

/-- The current content: `k` open sections deep. -/
def getAt : Nat → Forest → Option Forest
  | 0, F => some F
  | k + 1, F => (lastSec F).bind fun dc => getAt k dc.2

/-- raytools/io.py 538-553 `_pop_and_promote`: returns the index path (`none` for Python's None) and the changed list. `i` is
the index of the first entry of the list under consideration. -/
def pop (val : Str) : List Nat → Nat → Forest → Option (List Nat) × Forest
  | idx, _, nil => (some idx, nil)
  | idx, i, str s r =>
    if s = val then
      (if idx.isEmpty then (none, str s r) else (some (idx ++ [i]), r))
    else
      let p := pop val idx (i + 1) r
      (p.1, str s p.2)
  | idx, i, sec n d c r =>
    let p := pop val (idx ++ [i]) 0 c
    (p.1, sec n d p.2 r)

/-- `l.insert(i, text)`. -/
def insertStr (s : Str) : Nat → Forest → Forest
  | 0, F => str s F
  | _ + 1, nil => str s nil
  | i + 1, str t r => str t (insertStr s i r)
  | i + 1, sec n d c r => sec n d c (insertStr s i r)

/-- `l[j]['content']` modified by `g` (the entry has to be a section: TypeError, IndexError otherwise). -/
def modNth (g : Forest → Except PyErr Forest) : Nat → Forest → Except PyErr Forest
  | _, nil => .error .IndexError
  | 0, str _ _ => .error .TypeError
  | 0, sec n d c r => do return sec n d (← g c) r
  | j + 1, str t r => do return str t (← modNth g j r)
  | j + 1, sec n d c r => do return sec n d c (← modNth g j r)

/-- raytools/io.py 520-525: descend along `path` and insert the text at index `i`. -/
def insertPath (s : Str) (i : Nat) : List Nat → Forest → Except PyErr Forest
  | [], F => .ok (insertStr s i F)
  | j :: p, F => modNth (insertPath s i p) j F

/-- raytools/io.py 520-525: descend along `idx[:-2]`, insert at `idx[k]`. -/
def promote (s : Str) (idx : List Nat) (F : Forest) : Except PyErr Forest :=
  let path := idx.take (idx.length - 2)
  match idx[path.length]? with
  | none => .error .IndexError
  | some i => insertPath s i path F

end Forest

/-! ## `_preprocess` -/

/-- The variables of `_preprocess`; `vals` is kept newest first. -/
structure St where
  files : Forest
  view : Option Str
  vals : List Str
  cs : List Nat
  lastkey : Str
  deriving DecidableEq

/-- raytools/io.py 462-466. -/
def St.init : St := ⟨.nil, none, [], [], []⟩

/-- `cs[:j]` for an integer `j`. -/
def sliceTo (l : List Nat) (j : Int) : List Nat :=
  if j < 0 then l.take ((l.length : Int) + j).toNat else l.take j.toNat

/-- raytools/io.py 478-486: the open sections that stay open for a section line. -/
def csSection (cs : List Nat) (depth : Nat) : List Nat :=
  match cs.getLast? with
  | none => []
  | some top => if depth > top then cs else sliceTo cs (-(((depth : Int) - top) + 1))

/-- raytools/io.py 475-493: a section line. -/
def sectionStep (st : St) (cl : Str) (depth : Nat) : Except PyErr St := do
  let F ← Forest.modAt (csSection st.cs depth).length (fun c => .ok (c.pushSec (sectionName cl) depth)) st.files
  return { st with files := F, cs := csSection st.cs depth ++ [depth] }

/-- raytools/io.py 514-516: a continuation line. -/
def continueStep (st : St) (val : Str) : Except PyErr St := do
  let F ← Forest.modAt st.cs.length (Forest.extendLast (' ' :: lstrip val)) st.files
  match st.vals with
  | [] => .error .IndexError
  | v :: vs => return { st with files := F, vals := (v ++ ' ' :: lstrip val) :: vs }

/-- raytools/io.py 517-525: a line seen before. -/
def promoteStep (st : St) (cl : Str) : Except PyErr St :=
  match (Forest.pop cl [] 0 st.files).1 with
  | none => .ok { st with files := (Forest.pop cl [] 0 st.files).2 }
  | some idx => do return { st with files := ← Forest.promote cl idx (Forest.pop cl [] 0 st.files).2 }

/-- raytools/io.py 528-530: the open sections that stay open for a new line. -/
def csLine (cs : List Nat) (depth : Nat) : List Nat :=
  match cs.getLast? with
  | none => cs
  | some top => if depth ≤ top then sliceTo cs (-(((top : Int) - depth) + 1)) else cs

/-- raytools/io.py 527-534: a new line. -/
def newStep (st : St) (text : Str) (depth : Nat) : Except PyErr St := do
  let F ← Forest.modAt (csLine st.cs depth).length (fun c => .ok (c.pushStr text)) st.files
  return { st with files := F, cs := csLine st.cs depth, vals := text :: st.vals }

/-- raytools/io.py 510-534: a line that is kept. -/
def keepStep (st : St) (cl : Str) (depth : Nat) : Except PyErr St :=
  if (keyVal cl).1 = "...".toList ∨
      ((keyVal cl).1 = st.lastkey ∧ Forest.getAt st.cs.length st.files ≠ some Forest.nil) then
    continueStep st (keyVal cl).2
  else if cl ∈ st.vals then promoteStep st cl
  else newStep st (norm cl) depth

/-- raytools/io.py 467-535: the loop body. -/
def step (st : St) (h : Str) : Except PyErr St :=
  if isSectionText (cleanLine h) then sectionStep st (cleanLine h) (lineDepth h)
  else if (keyVal (cleanLine h)).1 = "pvalue".toList ∨ (keyVal (cleanLine h)).1 = "FORMAT".toList then .ok st
  else if (keyVal (cleanLine h)).1 = "VIEW".toList then .ok { st with view := some (keyVal (cleanLine h)).2 }
  else do
    let st' ← keepStep st (cleanLine h) (lineDepth h)
    return { st' with lastkey := (keyVal (cleanLine h)).1 }

/-- raytools/io.py 455-536 `_preprocess`. -/
def run (st : St) : List Str → Except PyErr St
  | [] => .ok st
  | h :: hs => do run (← step st h) hs

/-! ## output -/

/-- raytools/io.py 555-573 `_clean_up` with `outtab = "\t"` (a negative repetition gives the empty string). -/
def cleanUp (depth da : Int) : Forest → List Str
  | .nil => []
  | .str s r => (List.replicate (depth + 1 - da).toNat '\t' ++ s) :: cleanUp depth da r
  | .sec n d c r =>
    (if c = .nil then []
     else if c.allSec then cleanUp d (da + 1) c
     else (List.replicate ((d : Int) - da).toNat '\t' ++ n ++ [':']) :: cleanUp d da c) ++ cleanUp depth da r

/-- raytools/io.py 440-444: the indentation of continuation lines. -/
def contIndent (i : Str) : Str :=
  i.takeWhile isSpace ++
    (if '=' ∈ strip i then (strip i).takeWhile (· ≠ '=') ++ "= ".toList else "   ...  ".toList)

/-- raytools/io.py 445-449 `textwrap.fill`: `wrap width indent text` are the pieces the text is broken into. -/
def fill (wrap : Nat → Str → Str → List Str) (width : Nat) (i : Str) : Str :=
  match wrap width (contIndent i) i with
  | [] => []
  | p :: ps => joinWith '\n' (p :: ps.map (contIndent i ++ ·))

/-- What the proofs use of `textwrap` with `drop_whitespace=False, replace_whitespace=False, expand_tabs=False`: the
concatenation of the pieces is the text, the first is not empty, and a text that fits is not broken. The model of `textwrap`
itself (`Verif.Model.Textwrap`) has these properties (`Verif.Textwrap.textwrap_ok`). -/
structure WrapOk (wrap : Nat → Str → Str → List Str) : Prop where
  join : ∀ w ind t, (wrap w ind t).flatten = t
  head : ∀ w ind t p ps, wrap w ind t = p :: ps → p ≠ []
  fits : ∀ w ind t, t ≠ [] → t.length ≤ w → wrap w ind t = [t]

/-- raytools/io.py 436-453: the body of the `text` setter, from the input lines. -/
def assemble (wrap : Nat → Str → Str → List Str) (width : Nat) (st : St) : List Str :=
  splitlines (joinWith '\n' ((cleanUp (-1) 0 st.files).map (fill wrap width))) ++
    (match st.view with
     | none => []
     | some v => ["VIEW=".toList ++ v])

/-- raytools/io.py 430-453 with `text` given: `CleanHeader(text, headerwidth=width).header`. -/
def cleanText (wrap : Nat → Str → Str → List Str) (width : Nat) (text : Str) : Except PyErr (List Str) := do
  return assemble wrap width (← run St.init (splitlines text))

/-- raytools/io.py 292-295 `clean_header` (a list of lines is joined with line feeds first, 433-434). -/
def cleanHeader (wrap : Nat → Str → Str → List Str) (lines : List Str) : Except PyErr (List Str) :=
  cleanText wrap 150 (joinWith '\n' lines)

/-- raytools/io.py 274-288: the loop of `header_items` over the cleaned lines; `lower` is `str.lower`. -/
def itemsLoop (lower : Str → Str) (items : List Str) (out : List Str) : List Str → List Str
  | [] => out
  | line :: ls =>
    let cl := strip line
    if isSectionText cl then itemsLoop lower items out ls
    else
      let kv := keyVal cl
      let key := lower kv.1
      if key ∈ items then itemsLoop lower items (out.set (items.idxOf key) (strip kv.2)) ls
      else itemsLoop lower items out ls

/-- raytools/io.py 270-289 `header_items`. -/
def headerItems (wrap : Nat → Str → Str → List Str) (lower : Str → Str) (lines items : List Str) :
    Except PyErr (List Str) := do
  let header ← cleanText wrap 4096 (joinWith '\n' lines)
  let its := items.map lower
  return itemsLoop lower its (List.replicate its.length []) header

end Verif.Header
