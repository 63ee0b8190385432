import Verif.Model.Py
/-!
# Model of array <-> bytes conversion and HDR image layout (raytools/io.py 49-267)

Array elements are the bit patterns of the chosen dtype: natural numbers below `256 ^ itemsize` (the conversion of a value
to its bit pattern, `astype`, is the identity on arrays that already have the dtype). Arrays are a shape and the elements
in C order, which is what `tobytes` writes whatever the memory layout.
-/
namespace Verif.Bytes
open Verif.Py

/-- Fixed size dtype: item size in bytes and byte order. -/
structure Dtype where
  itemsize : Nat
  bigEndian : Bool
  deriving DecidableEq

/-- An n-dimensional array in C order. -/
structure Arr where
  shape : List Nat
  data : List Nat
  deriving DecidableEq, Repr

/-- Number of elements of a shape. -/
def size (shape : List Nat) : Nat := shape.foldr (· * ·) 1

/-- `k` bytes of `n`, least significant first. -/
def leBytes : Nat → Nat → List Nat
  | 0, _ => []
  | k + 1, n => n % 256 :: leBytes k (n / 256)

/-- Number with the given bytes, least significant first. -/
def leVal : List Nat → Nat
  | [] => 0
  | b :: bs => b + 256 * leVal bs

/-- Bytes of one element. -/
def encItem (d : Dtype) (n : Nat) : List Nat :=
  if d.bigEndian then (leBytes d.itemsize n).reverse else leBytes d.itemsize n

/-- Element with the given bytes. -/
def decItem (d : Dtype) (bs : List Nat) : Nat :=
  if d.bigEndian then leVal bs.reverse else leVal bs

/-- raytools/io.py 49-63 `np2bytes`. -/
def np2bytes (d : Dtype) (ar : Arr) : List Nat := ar.data.flatMap (encItem d)

/-- Consecutive groups of `k` bytes (`n` groups). -/
def chunks (k : Nat) : Nat → List Nat → List (List Nat)
  | 0, _ => []
  | n + 1, bs => bs.take k :: chunks k n (bs.drop k)

/-- `np.frombuffer`: ValueError unless the length is a multiple of the item size. -/
def frombuffer (d : Dtype) (buf : List Nat) : Except PyErr (List Nat) :=
  if buf.length % d.itemsize = 0 then .ok ((chunks d.itemsize (buf.length / d.itemsize) buf).map (decItem d))
  else .error .ValueError

/-- `ndarray.reshape(*shape)` for `n` elements: at most one negative (unknown) dimension, which must come out whole. -/
def resolveShape (n : Nat) (shape : List Int) : Except PyErr (List Nat) :=
  let known := size ((shape.filter (0 ≤ ·)).map Int.toNat)
  match (shape.filter (· < 0)).length with
  | 0 => if known = n then .ok (shape.map Int.toNat) else .error .ValueError
  | 1 => if known = 0 ∨ n % known ≠ 0 then .error .ValueError
         else .ok (shape.map fun s => if s < 0 then n / known else s.toNat)
  | _ => .error .ValueError

/-- raytools/io.py 83-99 `bytes2np` (and 102-119 `bytefile2np`, which reads the whole file first). -/
def bytes2np (d : Dtype) (buf : List Nat) (shape : List Int) : Except PyErr Arr :=
  match frombuffer d buf with
  | .error e => .error e
  | .ok data => match resolveShape data.length shape with
    | .error e => .error e
    | .ok s => .ok ⟨s, data⟩

/-! ## Binary files -/

/-- How `np2bytefile` opens the file (raytools/io.py 66-80): `'wb'` truncates, `'ab'` appends. -/
inductive Mode
  | wb | ab
  deriving DecidableEq

/-- raytools/io.py 66-80 `np2bytefile`; the file's content before and after (`none`: no such file). -/
def np2bytefile (d : Dtype) (file : Option (List Nat)) (ar : Arr) : Mode → Option (List Nat)
  | .wb => some (np2bytes d ar)
  | .ab => some (file.getD [] ++ np2bytes d ar)

/-- A history of writes to one file. -/
def writes (d : Dtype) (file : Option (List Nat)) (h : List (Arr × Mode)) : Option (List Nat) :=
  h.foldl (fun f w => np2bytefile d f w.1 w.2) file

/-! ## HDR images -/

/-- C order data of a 2d array given by its entries. -/
def tab2 {α : Type} (h w : Nat) (f : Nat → Nat → α) : List α :=
  (List.range h).flatMap fun r => (List.range w).map (f r)

/-- Entry `[r][c]` of C order data with rows of length `w`. -/
def at2 (w : Nat) (data : List Nat) (r c : Nat) : Nat := data.getD (r * w + c) 0

/-- C order data of a 3d array given by its entries. -/
def tab3 {α : Type} (a b c : Nat) (f : Nat → Nat → Nat → α) : List α :=
  (List.range a).flatMap fun i => tab2 b c (f i)

/-- Entry `[i][j][k]` of C order data of shape `(_, b, c)`. -/
def at3 (b c : Nat) (data : List Nat) (i j k : Nat) : Nat := data.getD ((i * b + j) * c + k) 0

/-- 4 byte floats, `'<f'`. -/
def f32 : Dtype := ⟨4, false⟩

/-- the floats pvalue reads and prints with `-df`: native, i.e. little endian on the platforms considered (trusted) -/
def pvFloat : Dtype := ⟨4, false⟩

/-- A stored Radiance picture: `-Y rows +X cols`, row 0 on top, colour per pixel. -/
structure Pic where
  rows : Nat
  cols : Nat
  px : Nat → Nat → Nat → Nat   -- row, column, channel

/-- `pvalue -r -b -h -H -df -o -y H +x W`: read one float per pixel, top row first, store grey.
Trusted: pvalue stores the pixel values it is given (the quantisation of the RGBE encoding is not modelled). -/
def pvalueStoreGrey (rows cols : Nat) (buf : List Nat) : Option Pic :=
  match frombuffer pvFloat buf with
  | .ok data => some ⟨rows, cols, fun r c _ => at2 cols data r c⟩
  | .error _ => none

/-- `pvalue -r -h -H -df -o -y H +x W`: three interleaved floats per pixel. Same trust. -/
def pvalueStoreColor (rows cols : Nat) (buf : List Nat) : Option Pic :=
  match frombuffer pvFloat buf with
  | .ok data => some ⟨rows, cols, fun r c k => at3 cols 3 data r c k⟩
  | .error _ => none

/-- Output of `pvalue -b -h -df -o`: resolution line tokens and one float per pixel; the brightness of a grey pixel is
its value (trusted). -/
def pvaluePrintGrey (p : Pic) : List Nat × (Nat × Nat) :=
  (np2bytes pvFloat ⟨[p.rows, p.cols], tab2 p.rows p.cols fun r c => p.px r c 0⟩, (p.rows, p.cols))

/-- Output of `pvalue -n -h -df -o`: three planes (trusted meaning of `-n`). -/
def pvaluePrintColor (p : Pic) : List Nat × (Nat × Nat) :=
  (np2bytes pvFloat ⟨[3, p.rows, p.cols], tab3 3 p.rows p.cols fun k r c => p.px r c k⟩, (p.rows, p.cols))

/-- raytools/io.py 164-183 `array2hdr` for a 2d array `ar` of shape `(W, H)` with entries `ar x y`: the bytes of
`ar.T[::-1]` are piped to pvalue with `-y ar.shape[-1] +x ar.shape[-2]`. -/
def array2hdr (W H : Nat) (ar : Nat → Nat → Nat) : Option Pic :=
  -- `ar.T` has entry `[y][x] = ar[x][y]`; `[::-1]` reverses the first axis
  let t := fun y x => ar x y
  let rev := fun r x => t (H - 1 - r) x
  pvalueStoreGrey H W (np2bytes f32 ⟨[H, W], tab2 H W rev⟩)

/-- raytools/io.py 186-203 `carray2hdr` for an array of shape `(3, W, H)`: `ar.T[::-1]` has shape `(H, W, 3)`. -/
def carray2hdr (W H : Nat) (ar : Nat → Nat → Nat → Nat) : Option Pic :=
  let t := fun y x c => ar c x y
  let rev := fun r x c => t (H - 1 - r) x c
  pvalueStoreColor H W (np2bytes f32 ⟨[H, W, 3], tab3 H W 3 rev⟩)

/-- raytools/io.py 223-245 `hdr2array` (without vlambda): `bytes2np(data, (rows, cols)).T[:, ::-1]`.
The result is a shape and its entries. -/
def hdr2array (p : Pic) : Except PyErr ((Nat × Nat) × (Nat → Nat → Nat)) :=
  let (buf, (h, w)) := pvaluePrintGrey p
  match bytes2np f32 buf [(h : Int), (w : Int)] with
  | .error e => .error e
  | .ok a =>
    let t := fun x r => at2 w a.data r x
    .ok ((w, h), fun x y => t x (h - 1 - y))

/-- raytools/io.py 248-267 `hdr2carray`: `np.transpose(bytes2np(data, (3, rows, cols))[:, ::-1], (0, 2, 1))`. -/
def hdr2carray (p : Pic) : Except PyErr ((Nat × Nat × Nat) × (Nat → Nat → Nat → Nat)) :=
  let (buf, (h, w)) := pvaluePrintColor p
  match bytes2np f32 buf [3, (h : Int), (w : Int)] with
  | .error e => .error e
  | .ok a =>
    let rev := fun c r x => at3 h w a.data c (h - 1 - r) x
    .ok ((3, w, h), fun c x y => rev c y x)

/-- raytools/io.py 206-220 `_hdr_in`, the parsing of pvalue's first line (its whitespace separated tokens): the third
from last and the last token as integers; too few tokens is reported as ValueError (so is a token that is no integer). -/
def hdrInShape (parse : Str → Option Int) (toks : List Str) : Except PyErr (Int × Int) :=
  match toks.reverse with
  | last :: _ :: third :: _ =>
    match parse third, parse last with
    | some a, some b => .ok (a, b)
    | _, _ => .error .ValueError
  | _ => .error .ValueError

end Verif.Bytes
