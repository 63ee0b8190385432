/-!
# Python vocabulary shared by the model

Exceptions are values: a Python function that may raise is modelled as a function into `Except PyErr _`.
Strings are modelled as lists of characters.
-/
namespace Verif.Py

/-- The exception classes raised (or caught) by the modelled code. -/
inductive PyErr
  | ValueError | TypeError | IndexError | KeyError | AttributeError
  | FileNotFoundError | IOError | UnicodeDecodeError | ZeroDivisionError
  deriving DecidableEq, Repr

/-- Python text. -/
abbrev Str := List Char

/-- `str.isspace` for one character: the complete Unicode list used by `str.strip`, `str.split(None)`
and (for `str` patterns) the regular expression class `\s`. -/
def isSpace (c : Char) : Bool :=
  let n := c.toNat
  (9 ≤ n && n ≤ 13) || (28 ≤ n && n ≤ 32) || n == 0x85 || n == 0xa0 || n == 0x1680 ||
  (0x2000 ≤ n && n ≤ 0x200a) || n == 0x2028 || n == 0x2029 || n == 0x202f || n == 0x205f || n == 0x3000

/-- Line boundaries recognised by `str.splitlines` (other than the pair `\r\n`, which counts once). -/
def isLineBreak (c : Char) : Bool :=
  let n := c.toNat
  (10 ≤ n && n ≤ 13) || (28 ≤ n && n ≤ 30) || n == 0x85 || n == 0x2028 || n == 0x2029

/-- `str.lstrip()`. -/
def lstrip (s : Str) : Str := s.dropWhile isSpace

/-- `str.rstrip()`. -/
def rstrip (s : Str) : Str := (s.reverse.dropWhile isSpace).reverse

/-- `str.strip()`. -/
def strip (s : Str) : Str := rstrip (lstrip s)

/-- `str.split(sep)` for a one character separator: always at least one piece. -/
def splitOn (sep : Char) : Str → List Str
  | [] => [[]]
  | c :: cs =>
    if c = sep then [] :: splitOn sep cs
    else match splitOn sep cs with
      | [] => [[c]]
      | p :: ps => (c :: p) :: ps

/-- `sep.join(pieces)` for a one character separator. -/
def joinWith (sep : Char) : List Str → Str
  | [] => []
  | [p] => p
  | p :: q :: ps => p ++ sep :: joinWith sep (q :: ps)

/-- `str.split(None)`: maximal runs of non-space characters. -/
def tokens (s : Str) : List Str :=
  let rec go (cur : Str) : Str → List Str
    | [] => if cur.isEmpty then [] else [cur.reverse]
    | c :: cs =>
      if isSpace c then (if cur.isEmpty then go [] cs else cur.reverse :: go [] cs)
      else go (c :: cur) cs
  go [] s

end Verif.Py
