import Verif.Model.Header
/-!
# Model of `textwrap` as used by `CleanHeader` (raytools/io.py 445-449)

The standard library module of Python 3.11 (`textwrap.py` 15, 74-96, 157-177, 197-236, 238-339, 347-359) with the options of the call:
`expand_tabs`, `replace_whitespace` and `drop_whitespace` off, everything else at its default. The classes `\w` and `\d` of
regular expressions are parameters. `_wrap_chunks` has an unbounded loop: the model runs it with a number of rounds and
answers `none` when they do not suffice.
-/
namespace Verif.Textwrap
open Verif.Py Verif.Header

/-- The character classes `\w` and `\d`. -/
structure Cls where
  word : Char → Bool
  digit : Char → Bool

/-- The ASCII part of the classes. -/
def ascii : Cls := ⟨fun c => c.isAlphanum || c == '_', Char.isDigit⟩

/-- textwrap.py 15 `_whitespace`. -/
def isWs (c : Char) : Bool := (9 ≤ c.toNat && c.toNat ≤ 13) || c.toNat == 32

/-- textwrap.py 74 `word_punct`. -/
def Cls.punct (k : Cls) (c : Char) : Bool := k.word c || "!\"'&.,?".toList.contains c

/-- textwrap.py 75 `letter`. -/
def Cls.letter (k : Cls) (c : Char) : Bool := k.word c && !k.digit c

/-- `-{2,}(?=\w)` here, `(?<=wp)` behind (textwrap.py 82 and 91); `prev` is the text before, reversed. -/
def emDash (k : Cls) (prev s : Str) : Bool :=
  (prev.head?.any k.punct) && 2 ≤ (s.takeWhile (· = '-')).length && ((s.dropWhile (· = '-')).head?.any k.word)

/-- `(?<=lt{2}-)|(?<=lt-lt-)` behind a hyphen (textwrap.py 86). -/
def hyphenBehind (k : Cls) : Str → Bool
  | a :: '-' :: b :: _ => k.letter a && k.letter b
  | a :: b :: _ => k.letter a && k.letter b
  | _ => false

/-- `(?= lt -? lt)` (textwrap.py 87). -/
def letterAhead (k : Cls) : Str → Bool
  | a :: '-' :: b :: _ => k.letter a && k.letter b
  | a :: b :: _ => k.letter a && k.letter b
  | _ => false

/-- textwrap.py 86-87: a hyphen after which a word may be broken. -/
def hyphenBreak (k : Cls) (prev : Str) : Str → Bool
  | '-' :: s => hyphenBehind k prev && letterAhead k s
  | _ => false

/-- textwrap.py 84-92: number of further characters of a word, behind its first. -/
def wordLen (k : Cls) : Str → Str → Nat
  | _, [] => 0
  | prev, c :: s =>
    if hyphenBreak k prev (c :: s) then 1
    else if isWs c || emDash k prev (c :: s) then 0
    else wordLen k (c :: prev) s + 1

/-- textwrap.py 78-95: length of the match of `wordsep_re` here. -/
def chunkLen (k : Cls) (prev : Str) : Str → Nat
  | [] => 0
  | c :: s =>
    if isWs c then ((c :: s).takeWhile isWs).length
    else if emDash k prev (c :: s) then ((c :: s).takeWhile (· = '-')).length
    else wordLen k (c :: prev) s + 1

/-- textwrap.py 173, 176 `wordsep_re.split(text)` without the empty pieces. -/
def splitGo (k : Cls) : Nat → Str → Str → List Str
  | 0, _, _ => []
  | _ + 1, _, [] => []
  | n + 1, prev, c :: s =>
    (c :: s).take (chunkLen k prev (c :: s)) ::
      splitGo k n (((c :: s).take (chunkLen k prev (c :: s))).reverse ++ prev) ((c :: s).drop (chunkLen k prev (c :: s)))

/-- textwrap.py 157-177 `_split`. -/
def split (k : Cls) (s : Str) : List Str := splitGo k s.length [] s

/-- textwrap.py 287-297: the chunks that fit on the line, and the others. -/
def fitLine (width : Int) (cur : Nat) : List Str → Str × List Str
  | [] => ([], [])
  | c :: cs =>
    if (cur : Int) + c.length ≤ width then (c ++ (fitLine width (cur + c.length) cs).1, (fitLine width (cur + c.length) cs).2)
    else ([], c :: cs)

/-- `s.rfind('-')`. -/
def lastHyphen : Str → Option Nat
  | [] => none
  | c :: s => match lastHyphen s with
    | some i => some (i + 1)
    | none => if c = '-' then some 0 else none

/-- textwrap.py 214-224: where a chunk that fits on no line is cut. -/
def cutAt (chunk : Str) (space : Nat) : Nat :=
  if space < chunk.length then
    match lastHyphen (chunk.take space) with
    | some h => if 0 < h ∧ (chunk.take h).any (· ≠ '-') then h + 1 else space
    | none => space
  else space

/-- textwrap.py 207-210: the room left on the line. -/
def spaceLeft (width : Int) (cur : Nat) : Nat := if width < 1 then 1 else (width - cur).toNat

/-- textwrap.py 270-303: one line (without its indentation) and the chunks left. The line always has a chunk, since one that
does not fit on an empty line is cut. -/
def lineStep (width : Int) (chunks : List Str) : Str × List Str :=
  match (fitLine width 0 chunks).2 with
  | [] => ((fitLine width 0 chunks).1, [])
  | c :: cs =>
    if (c.length : Int) > width then
      ((fitLine width 0 chunks).1 ++ c.take (cutAt c (spaceLeft width (fitLine width 0 chunks).1.length)),
        c.drop (cutAt c (spaceLeft width (fitLine width 0 chunks).1.length)) :: cs)
    else ((fitLine width 0 chunks).1, c :: cs)

/-- textwrap.py 266-320: the loop over the lines, at most `n` rounds. `width` is that of the next line. -/
def wrapGo (w ind : Nat) : Nat → Int → List Str → Option (List Str)
  | _, _, [] => some []
  | 0, _, _ :: _ => none
  | n + 1, width, c :: cs =>
    (wrapGo w ind n ((w : Int) - ind) (lineStep width (c :: cs)).2).map ((lineStep width (c :: cs)).1 :: ·)

/-- textwrap.py 347-359 `wrap`, at most `n` rounds; the lines are given without their indentation. -/
def wrapRun (k : Cls) (n w : Nat) (ind t : Str) : Option (List Str) := wrapGo w ind.length n w (split k t)

/-- `textwrap.wrap` where it ends (`Verif.Textwrap.C130_wrap`); the text in one piece where it does not. -/
def textwrap (k : Cls) (w : Nat) (ind t : Str) : List Str := (wrapRun k (2 * t.length + 1) w ind t).getD [t]

/-- raytools/io.py 436-453 with at most `n` rounds of `textwrap` for every entry: `none` when they do not suffice. -/
def cleanRun (k : Cls) (n width : Nat) (text : Str) : Option (Except PyErr (List Str)) :=
  match run St.init (splitlines text) with
  | .error e => some (.error e)
  | .ok st =>
    if (cleanUp (-1) 0 st.files).all fun i => (wrapRun k n width (contIndent i) i).isSome then
      some (.ok (assemble (fun w ind t => (wrapRun k n w ind t).getD []) width st))
    else none

end Verif.Textwrap
