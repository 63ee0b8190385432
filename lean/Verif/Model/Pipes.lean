import Mathlib.Data.Nat.Notation
/-!
# Programs joined by pipes (raytools/io.py 122-161, 209-224, 315-325)

`_array2hdr` starts `pvalue`, with a header also `getinfo`, writes the pixels into the first pipe and waits; `_hdr_in` and
`hdr_header` read what a program prints. The operating system runs the three processes in any order: a schedule lists whose
turn it is, a process that cannot move (full or empty pipe, child still running) stays where it is.

* A pipe holds a bounded number of bytes; writing to a full one and reading from an empty one blocks; reading from an
  empty one whose writers have closed it is the end of the file; writing to one without readers is a `BrokenPipeError`.
* A Radiance program is a `Filter`: what it prints first, what it prints and remembers for each byte, and what it prints at
  the end. `pvalue -r -H -y Y +x X` reads the number of bytes its options announce and ends (or ends at the end of the file);
  `getinfo -a` reads until the end of the file.
* Simplified: bytes move one at a time (blocks are several turns in a row); the programs are found and started; nobody kills
  them; the disk is not full.
-/
namespace Verif.Pipes

/-- a program that turns its standard input into its standard output -/
structure Filter (β : Type) where
  /-- what it remembers -/
  σ : Type
  start : σ
  /-- printed before anything is read -/
  greet : List β
  on : σ → β → σ × List β
  /-- printed at the end -/
  bye : σ → List β

/-- where the calling python process is in `_array2hdr` (io.py 154-160): writing, in `communicate`, returned, raised -/
inductive Par (β : Type)
  | send (rest : List β)
  | wait
  | done
  | broken
  deriving DecidableEq

/-- a program that wants `k` more bytes (`pvalue`): `pend` is what it has still to print -/
inductive Take (β σ : Type)
  | reading (s : σ) (k : ℕ) (pend : List β)
  | closing (pend : List β)
  | gone

/-- a program that reads until the end of the file (`getinfo`) -/
inductive Copy (β σ : Type)
  | reading (s : σ) (pend : List β)
  | closing (pend : List β)
  | gone

def Take.isGone {β σ : Type} : Take β σ → Bool
  | .gone => true
  | _ => false

def Copy.isGone {β σ : Type} : Copy β σ → Bool
  | .gone => true
  | _ => false

/-- io.py 144-153: what is started; `want`: the bytes announced to `pvalue`, `hdr`: is there a header -/
structure Net (β : Type) where
  F : Filter β
  G : Filter β
  want : ℕ
  cap1 : ℕ
  cap2 : ℕ
  hdr : Bool

/-- the processes, the pipes between them and the file; `shut`: python has closed the standard input of `pvalue` -/
structure Cfg {β : Type} (n : Net β) where
  par : Par β
  inp : List β
  shut : Bool
  p : Take β n.F.σ
  mid : List β
  q : Copy β n.G.σ
  out : List β

variable {β : Type}

/-- io.py 144-153: everything has been started -/
def start (n : Net β) (data : List β) : Cfg n :=
  ⟨.send data, [], false, .reading n.F.start n.want n.F.greet, [],
    if n.hdr then .reading n.G.start n.G.greet else .gone, []⟩

/-- python's turn (io.py 154-156). `communicate` closes the pipe to the process it is called on: that is `pvalue` only without
a header; with one, `q` is `getinfo` and the input of `pvalue` stays open. -/
def stepPar (n : Net β) (c : Cfg n) : Option (Cfg n) :=
  match c.par with
  | .send (b :: r) =>
    if c.p.isGone then some { c with par := .broken }
    else if c.inp.length < n.cap1 then some { c with par := .send r, inp := c.inp ++ [b] }
    else none
  | .send [] => some { c with par := .wait, shut := !n.hdr }
  | .wait => if (if n.hdr then c.q.isGone else c.p.isGone) then some { c with par := .done } else none
  | .done => none
  | .broken => none

/-- `pvalue` prints a byte: into the pipe to `getinfo` (io.py 149), or into the file (io.py 152) -/
def emit (n : Net β) (c : Cfg n) (b : β) (p : Take β n.F.σ) : Option (Cfg n) :=
  if n.hdr then
    if c.mid.length < n.cap2 then some { c with mid := c.mid ++ [b], p := p } else none
  else some { c with out := c.out ++ [b], p := p }

/-- the turn of `pvalue` -/
def stepP (n : Net β) (c : Cfg n) : Option (Cfg n) :=
  match c.p with
  | .reading s k (b :: r) => emit n c b (.reading s k r)
  | .reading s 0 [] => some { c with p := .closing (n.F.bye s) }
  | .reading s (k + 1) [] =>
    match c.inp with
    | x :: l => some { c with inp := l, p := .reading (n.F.on s x).1 k (n.F.on s x).2 }
    | [] => if c.shut then some { c with p := .closing [] } else none
  | .closing (b :: r) => emit n c b (.closing r)
  | .closing [] => some { c with p := .gone }
  | .gone => none

/-- the turn of `getinfo` -/
def stepQ (n : Net β) (c : Cfg n) : Option (Cfg n) :=
  match c.q with
  | .reading s (b :: r) => some { c with out := c.out ++ [b], q := .reading s r }
  | .reading s [] =>
    match c.mid with
    | x :: l => some { c with mid := l, q := .reading (n.G.on s x).1 (n.G.on s x).2 }
    | [] => if c.p.isGone then some { c with q := .closing (n.G.bye s) } else none
  | .closing (b :: r) => some { c with out := c.out ++ [b], q := .closing r }
  | .closing [] => some { c with q := .gone }
  | .gone => none

/-- the three processes -/
inductive Who
  | python
  | pvalue
  | getinfo
  deriving DecidableEq

def step (n : Net β) : Who → Cfg n → Option (Cfg n)
  | .python => stepPar n
  | .pvalue => stepP n
  | .getinfo => stepQ n

/-- a turn: a process that cannot move stays where it is -/
def turn (n : Net β) (w : Who) (c : Cfg n) : Cfg n := (step n w c).getD c

/-- the state after a schedule -/
def run (n : Net β) (c : Cfg n) : List Who → Cfg n
  | [] => c
  | w :: ws => run n (turn n w c) ws

/-- the state after `t` turns of an endless schedule -/
def after (n : Net β) (c : Cfg n) (f : ℕ → Who) : ℕ → Cfg n
  | 0 => c
  | t + 1 => turn n (f t) (after n c f t)

/-! ## the sizes -/

/-- io.py 154: the bytes of an array of this shape in the format `<f` -/
def sent (lead : List ℕ) (x y : ℕ) : ℕ := 4 * (lead.prod * (x * y))

/-- io.py 178-180, 199: the bytes `pvalue` is told to expect: one float for each pixel with `-b` (two dimensions), else three -/
def wanted (lead : List ℕ) (x y : ℕ) : ℕ := if lead.isEmpty then 4 * (x * y) else 4 * (3 * (x * y))

/-! ## reading -/

/-- what a program prints, in order: `true` marks the error stream -/
abbrev Print (β : Type) := List (Bool × β)

/-- where python is when it reads: the first line (io.py 211), the rest (io.py 224), finished, or raised because the first
line is not a size (io.py 212-223) -/
inductive Rd (β : Type)
  | line (got : List β)
  | rest (first got : List β)
  | done (first got : List β)
  | bad (got : List β)

/-- a program printing into two pipes, and what python has read of its errors (`communicate` only) -/
structure RCfg (β : Type) where
  todo : Print β
  live : Bool
  out : List β
  err : List β
  rd : Rd β
  errGot : List β

/-- what differs between the callers: the sizes of the pipes, what ends a line, which first lines are sizes, and whether the
error stream is read as well -/
structure RNet (β : Type) where
  capOut : ℕ
  capErr : ℕ
  eol : β → Bool
  size : List β → Bool
  drain : Bool

/-- the program's turn: print, or end -/
def rChild (n : RNet β) (c : RCfg β) : Option (RCfg β) :=
  match c.todo with
  | (true, b) :: r => if c.err.length < n.capErr then some { c with todo := r, err := c.err ++ [b] } else none
  | (false, b) :: r => if c.out.length < n.capOut then some { c with todo := r, out := c.out ++ [b] } else none
  | [] => if c.live then some { c with live := false } else none

/-- the first line is complete: go on reading, or raise -/
def lineEnd (n : RNet β) (got : List β) : Rd β := if n.size got then .rest got [] else .bad got

/-- python's turn on the output of the program: io.py 211 (`readline`), 224 (`read`); `communicate` (io.py 316) is the case
without line ends in which every text is accepted, and also waits for the end of the errors -/
def rOut (n : RNet β) (c : RCfg β) : Option (RCfg β) :=
  match c.rd with
  | .line got =>
    match c.out with
    | b :: r => some { c with out := r, rd := if n.eol b then lineEnd n (got ++ [b]) else .line (got ++ [b]) }
    | [] => if c.live then none else some { c with rd := lineEnd n got }
  | .rest first got =>
    match c.out with
    | b :: r => some { c with out := r, rd := .rest first (got ++ [b]) }
    | [] => if c.live || (n.drain && !c.err.isEmpty) then none else some { c with rd := .done first got }
  | .done _ _ => none
  | .bad _ => none

/-- python's turn on the errors of the program: `communicate` (io.py 316) reads them, `_hdr_in` does not -/
def rErr (n : RNet β) (c : RCfg β) : Option (RCfg β) :=
  if n.drain then
    match c.err with
    | b :: r => some { c with err := r, errGot := c.errGot ++ [b] }
    | [] => none
  else none

/-- who moves: the program, python on its output, python on its errors -/
inductive RWho
  | child
  | out
  | err
  deriving DecidableEq

def rStep (n : RNet β) : RWho → RCfg β → Option (RCfg β)
  | .child => rChild n
  | .out => rOut n
  | .err => rErr n

def rTurn (n : RNet β) (w : RWho) (c : RCfg β) : RCfg β := (rStep n w c).getD c

/-- io.py 210, 315: the program has been started -/
def rStart (todo : Print β) : RCfg β := ⟨todo, true, [], [], .line [], []⟩

def rAfter (n : RNet β) (c : RCfg β) (f : ℕ → RWho) : ℕ → RCfg β
  | 0 => c
  | t + 1 => rTurn n (f t) (rAfter n c f t)

end Verif.Pipes
