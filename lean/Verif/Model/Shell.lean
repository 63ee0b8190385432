import Verif.Model.Py
/-!
# Command lines of the Radiance tools (raytools/io.py 144-152, 207, 241, 261, 306)

`shlex.split` of the Python standard library in POSIX mode, without comments, as a state machine over characters, and
the texts the code gives to it.
-/
namespace Verif.Shell
open Verif.Py

/-- `shlex.whitespace` -/
def isWs (c : Char) : Bool := c = ' ' || c = '\t' || c = '\r' || c = '\n'

/-- `shlex.quotes` -/
def isQuote (c : Char) : Bool := c = '\'' || c = '"'

/-- The states of `shlex.read_token`: between words, in a word, inside a quotation, after a backslash in a word
(`none`) or in a quotation. -/
inductive Mode
  | space | word | quote (q : Char) | esc (back : Option Char)
  deriving DecidableEq

/-- `read_token` until the end of the text; `tok` is the word so far, `quoted` whether a quotation was part of it. -/
def shGo : Mode → Str → Bool → Str → Except PyErr (List Str)
  | .space, _, _, [] => .ok []
  | .word, tok, quoted, [] => .ok (if tok ≠ [] ∨ quoted = true then [tok] else [])
  | .quote _, _, _, [] => .error .ValueError
  | .esc _, _, _, [] => .error .ValueError
  | .space, _, _, c :: cs =>
    if isWs c then shGo .space [] false cs
    else if c = '\\' then shGo (.esc none) [] false cs
    else if isQuote c then shGo (.quote c) [] true cs
    else shGo .word [c] false cs
  | .word, tok, quoted, c :: cs =>
    if isWs c then
      if tok ≠ [] ∨ quoted = true then (shGo .space [] false cs).map (tok :: ·) else shGo .space [] false cs
    else if isQuote c then shGo (.quote c) tok true cs
    else if c = '\\' then shGo (.esc none) tok quoted cs
    else shGo .word (tok ++ [c]) quoted cs
  | .quote q, tok, _, c :: cs =>
    if c = q then shGo .word tok true cs
    else if c = '\\' ∧ q = '"' then shGo (.esc (some q)) tok true cs
    else shGo (.quote q) (tok ++ [c]) true cs
  | .esc none, tok, quoted, c :: cs => shGo .word (tok ++ [c]) quoted cs
  | .esc (some q), tok, _, c :: cs =>
    if c ≠ '\\' ∧ c ≠ q then shGo (.quote q) (tok ++ ['\\', c]) true cs else shGo (.quote q) (tok ++ [c]) true cs

/-- `shlex.split` -/
def shSplit (s : Str) : Except PyErr (List Str) := shGo .space [] false s

/-- `"' '".join(header)` -/
def joinQuoted : List Str → Str
  | [] => []
  | [l] => l
  | l :: l' :: ls => l ++ ('\'' :: ' ' :: '\'' :: joinQuoted (l' :: ls))

/-- the command that adds header lines, io.py 147-148 -/
def addLinesText (header : List Str) : Str := "getinfo -a '".toList ++ joinQuoted header ++ ['\'']

/-- the arguments `getinfo` is started with, io.py 148-150 -/
def addLinesArgv (header : List Str) : Except PyErr (List Str) := shSplit (addLinesText header)

/-- a command with a file name at the end: io.py 306 (`getinfo`), 241 and 261 (`pvalue`) -/
def fileArgv (cmd imgf : Str) : Except PyErr (List Str) := shSplit (cmd ++ ' ' :: imgf)

/-- io.py 306 -/
def getinfoCmd : Str := "getinfo".toList
/-- io.py 241 -/
def greyCmd : Str := "pvalue -b -h -df -o".toList
/-- io.py 261 -/
def colorCmd : Str := "pvalue -n -h -df -o".toList

end Verif.Shell
