#!/usr/bin/env python3
"""Compare the models of Python's string operations with Python itself.

The header cleaner, the shell lines and the file names of the model use definitions of str.splitlines, str.strip,
str.split, shlex.split, textwrap.wrap, rsplit, format(":02d") and three regular expressions.  This script draws random
texts, evaluates the library function in Python and the definition in Lean, and prints every difference.
It runs nothing of /repo.  It is a test of the trusted base, not a proof.

usage: tools/stdlib_diff.py SEED COUNT      (needs a finished 'lake build' in lean/)
"""
import os, random, re, shlex, signal, subprocess, sys, tempfile, textwrap

RUNNER = r'''
import Verif.Model.Textwrap
import Verif.Model.Shell
import Verif.Model.Names
import Verif.Model.Header
open Verif Verif.Py
def dec (s : String) : Str := if s == "-" then [] else (s.splitOn ",").map fun t => Char.ofNat t.toNat!
def enc (s : Str) : String := if s = [] then "-" else ",".intercalate (s.map fun c => toString c.toNat)
def encL (l : List Str) : String := ";".intercalate (l.map enc)
def run1 (line : String) : String :=
  match line.splitOn " " with
  | ["splitlines", a] => encL (Header.splitlines (dec a))
  | ["strip", a] => encL [strip (dec a), lstrip (dec a), rstrip (dec a)]
  | ["tokens", a] => encL (tokens (dec a))
  | ["shlex", a] => match Shell.shSplit (dec a) with
    | .ok l => "ok " ++ encL l
    | .error _ => "err"
  | ["wrap", w, ind, t] => match Textwrap.wrapRun Textwrap.ascii 400 w.toNat! (dec ind) (dec t) with
    | some l => encL l
    | none => "none"
  | ["twrap", w, ind, t] => encL (Textwrap.textwrap Textwrap.ascii w.toNat! (dec ind) (dec t))
  | ["stem", a] => enc (Names.stem (dec a))
  | ["dec", a] => enc (Names.pad2 a.toInt!)
  | ["clean", a] => enc (Header.cleanLine (dec a))
  | ["depth", a] => toString (Header.lineDepth (dec a))
  | ["sect", a] => toString (Header.isSectionText (dec a))
  | ["kv", a] => encL [(Header.keyVal (dec a)).1, (Header.keyVal (dec a)).2]
  | ["norm", a] => enc (Header.norm (dec a))
  | ["name", a] => enc (Header.sectionName (dec a))
  | _ => "?"
def main : IO Unit := do
  let h ← IO.getStdin
  let mut go := true
  while go do
    let l ← h.getLine
    if l.isEmpty then go := false
    else IO.println (run1 (l.dropEndWhile (· == '\n')).toString)
'''


class TimeOut(Exception):
    pass


def alarm(*_):
    raise TimeOut()


signal.signal(signal.SIGALRM, alarm)
random.seed(int(sys.argv[1]))
N = int(sys.argv[2])
enc = lambda s: '-' if not s else ','.join(str(ord(c)) for c in s)
encL = lambda l: ';'.join(enc(s) for s in l)
pool_ws = " \t\n\r\x0b\x0c\x1c\x1d\x1e\x1f\x85\xa0\u2028\u2029\u2003\u3000\u1680\u200b\u180e"
cases = []
exp = []


def rs(parts, n):
    return ''.join(random.choice(parts) for _ in range(random.randint(0, n)))


rc = rs


def put(c, s, e):
    cases.append(c + " " + enc(s))
    exp.append(e)


for _ in range(N):
    s=rc("ab "+pool_ws,12); cases.append("splitlines "+enc(s)); exp.append(encL(s.splitlines()))
    s=rc("ab"+pool_ws,10); cases.append("strip "+enc(s)); exp.append(encL([s.strip(),s.lstrip(),s.rstrip()]))
    s=rc("ab"+pool_ws,12); cases.append("tokens "+enc(s)); exp.append(encL(s.split()))
    s=rc("ab '\"\\#\n\t\r\u00e9",14); cases.append("shlex "+enc(s))
    try: exp.append("ok "+encL(shlex.split(s)))
    except ValueError: exp.append("err")
    s=rc("ab1_---.,  \t\"!=",40); w=random.randint(1,14); ind=' '*random.randint(0,16)
    if random.random()<.5: ind='... '[:random.randint(0,4)]
    try:
        signal.setitimer(signal.ITIMER_REAL,0.05)
        r=textwrap.wrap(s,w,expand_tabs=False,replace_whitespace=False,drop_whitespace=False,subsequent_indent=ind)
        signal.setitimer(signal.ITIMER_REAL,0)
        r=r[:1]+[x[len(ind):] for x in r[1:]]
        for op in ("wrap","twrap"):
            cases.append(f"{op} {w} {enc(ind)} {enc(s)}"); exp.append(encL(r))
    except TimeOut: cases.append(f'wrap {w} {enc(ind)} {enc(s)}'); exp.append('none')
    except Exception as e: print('EXC',repr(e),repr(s),w,repr(ind),file=sys.stderr)
    s=rc("ab./ ",10); cases.append("stem "+enc(s)); exp.append(enc(s.rsplit('.',1)[0]))
    z=random.randint(-120,120); cases.append(f"dec {z}"); exp.append(enc(f"{z:02d}"))

for _ in range(N):
    s=rs(["clasp_tmp","clasp_tm","p","/",":","a"," ","\t","c","\xa0","="],9)
    put("clean",s,enc(re.sub(r"\S*clasp_tmp[^\s:]*","<stdin>",s.strip())))
    s=rs([" "," ","    ","\t","\xa0","\x1f","a"],8)
    i=re.match(r"\s*",s).group(); put("depth",s,str(len(i.replace(" "*4,"\t").replace(" ",""))))
    s=rs(["a",":",":"," ","/"],5); put("sect",s,"true" if re.match(r"(.+):$",s) else "false")
    s=rs(["a","b","="," ","\t","\x1c","\xa0","\u200b"],8)
    if random.random()<.5: s=s.replace("=","")
    sep="=" if "=" in s else None
    try: k,v=s.split(sep,1)
    except ValueError: k,v=s,''
    put("kv",s,encL([k,v])); put("norm",s,enc(f"{k}{sep or ' '}{v}"))
    s=rs(["a","/",":","b"],7); put("name",s,enc(s.rsplit("/",1)[-1][:-1]))

here = os.path.join(os.path.dirname(os.path.abspath(__file__)), '..', 'lean')
with tempfile.TemporaryDirectory() as d:
    f = os.path.join(d, 'Runner.lean')
    open(f, 'w').write(RUNNER)
    got = subprocess.run(['lake', 'env', 'lean', '--run', f], cwd=here, input='\n'.join(cases) + '\n',
                         capture_output=True, text=True).stdout.splitlines()
bad = [(c, e, g) for c, e, g in zip(cases, exp, got) if e != g]
for b in bad[:20]:
    print(*b, sep=' | ')
print(len(cases), 'cases,', len(got), 'answers,', len(bad), 'differences')
