import Verif.Act.Contents
/-!
# C85: the programs that the commands of a target run

`CommandAction.get_implicit_deps` and its two ways of looking
(/repo/SCons/Action.py:1120-1215), `Environment.WhereIs`
(/repo/SCons/Environment.py:2354-2404), `SCons.Util.WhereIs` for POSIX
(/repo/SCons/Util/__init__.py:768-800), and where the executor adds the result
(/repo/SCons/Executor.py:472-503, 540-552).

Simplifications: file nodes are their paths; `os.path.normpath` and `os.path.abspath`
are arbitrary functions; the search path is already a list
(`path.split(os.pathsep)`); the caller owns the files, so that `S_IXUSR` says whether a
file can be run.
-/
namespace Verif.Sgn
open Verif.Subst

/-- What the file system answers. -/
structure Disk where
  isfile : Str → Bool
  executable : Str → Bool
  norm : Str → Str
  abs : Str → Str

/-- `os.path.join(p, f)` on POSIX. -/
def joinPath (p f : Str) : Str :=
  if f.head? = some '/' then f
  else if p = [] ∨ p.getLast? = some '/' then p ++ f
  else p ++ '/' :: f

/-- `SCons.Util.WhereIs` (POSIX), Util/__init__.py:768-800. -/
def whereIs (d : Disk) (reject : List Str) (file : Str) : List Str → Option Str
  | [] => none
  | p :: path =>
    let f := joinPath p file
    if d.isfile f && d.executable f && !(reject.contains f) then some (d.norm f)
    else whereIs d reject file path

/-- `Environment.WhereIs(prog)`, Environment.py:2385-2404: the name is substituted
(once more), its first word is looked for. `CLVar(...)[0]` fails if there is none. -/
def envWhereIs (E : Env) (n : Nat) (d : Disk) (path : List Str) (prog : Str) : Except Err (Option Str) :=
  if prog = [] then .ok none
  else
    match subst E .cmd n (fun _ => none) prog with
    | .error e => .error e
    | .ok s =>
      match cut s with
      | [] => .error .user
      | w :: _ => .ok (whereIs d [] w path)

def isQuote (c : Char) : Bool := c = '\'' || c = '"'

/-- The expression `strip_quotes` (Action.py:150, used at 1161-1163 and 1200-1202). -/
def stripQuotes (s : Str) : Str :=
  match s with
  | q :: r =>
    match r.getLast? with
    | some q' => if isQuote q && isQuote q' && !(r.dropLast.contains '\n') then r.dropLast else s
    | none => s
  | [] => s

/-- `IMPLICIT_COMMAND_DEPENDENCIES` (Action.py:1122-1142): off, the first word of each
command line, or the first `k` words (all for `none`). -/
inductive Icd where
  | off | light | heavy (k : Option Nat)

/-- All of a list of optional results, or the first error. -/
def collect : List (Except Err (Option Str)) → Except Err (List Str)
  | [] => .ok []
  | .error e :: _ => .error e
  | .ok o :: l =>
    match collect l with
    | .error e => .error e
    | .ok r => .ok (o.toList ++ r)

/-- What is given to `subst_list` for a command. -/
def Body.value : Body → Option Val
  | .text s => some (.str s)
  | .words l => some (.seq (l.map .str))
  | .code _ => none

/-- `_get_implicit_deps_lightweight` (Action.py:1144-1168). -/
def lightDeps (E : Env) (n : Nat) (d : Disk) (path : List Str) (lines : List (List Str)) :
    Except Err (List Str) :=
  collect (lines.map fun
    | [] => .ok none
    | w :: _ => envWhereIs E n d path (stripQuotes w))

def startsAmpDash (w : Str) : Bool :=
  match w.head? with
  | some c => c = '&' || c = '-'
  | none => false

/-- The file for one word of a command line (Action.py:1204-1211); `cnt` is the value
of `entry_count`. -/
def heavyEntry (E : Env) (n : Nat) (d : Disk) (path : List Str) (cnt : Nat) (w : Str) : Except Err (Option Str) :=
  let p := stripQuotes w
  if p = [] then .ok none
  else if d.isfile p then .ok (some (d.abs p))
  else if cnt = 0 then envWhereIs E n d path p
  else .ok none

/-- `icd_int is None or entry_count < icd_int` (Action.py:1192). -/
def within (k : Option Nat) (cnt : Nat) : Bool :=
  match k with
  | none => true
  | some k => decide (cnt < k)

/-- One command line (Action.py:1190-1216). -/
def heavyGo (E : Env) (n : Nat) (d : Disk) (path : List Str) (k : Option Nat) : Nat → List Str →
    List (Except Err (Option Str))
  | _, [] => []
  | cnt, w :: ws =>
    if within k cnt && !startsAmpDash w then
      heavyEntry E n d path cnt w :: heavyGo E n d path k (cnt + 1) ws
    else heavyGo E n d path k (if w = ['&', '&'] then 0 else cnt + 1) ws

/-- `_get_implicit_deps_heavyweight` (Action.py:1170-1223): without the targets and
sources of the command. -/
def heavyDeps (E : Env) (n : Nat) (d : Disk) (path : List Str) (k : Option Nat) (own : List Str)
    (lines : List (List Str)) : Except Err (List Str) :=
  match collect (lines.flatMap (heavyGo E n d path k 0)) with
  | .error e => .error e
  | .ok l => .ok (l.filter fun p => !(own.contains p))

/-- `CommandAction.get_implicit_deps` (Action.py:1120-1142); code has none (1457).
`own`: the targets and sources. -/
def Single.commandDeps (E : Env) (n : Nat) (lv : Vars) (d : Disk) (path : List Str) (icd : Icd) (own : List Str)
    (a : Single) : Except Err (List Str) :=
  match a.body.value with
  | none => .ok []
  | some v =>
    match icd with
    | .off => .ok []
    | .light =>
      match substList E .sig n lv v with
      | .error e => .error e
      | .ok lines => lightDeps E n d path lines
    | .heavy k =>
      match substList E .sig n (fun _ => none) v with
      | .error e => .error e
      | .ok lines => heavyDeps E n d path k own lines

/-- All of them, or the first error. -/
def concatOf : List (Except Err (List Str)) → Except Err (List Str)
  | [] => .ok []
  | .error e :: _ => .error e
  | .ok x :: l =>
    match concatOf l with
    | .error e => .error e
    | .ok r => .ok (x ++ r)

/-- `Executor.get_implicit_deps` (Executor.py:540-552), `ListAction.get_implicit_deps`
(Action.py:1519-1523). -/
def Exec.commandDeps (x : Exec) (E : Env) (n : Nat) (lv : Vars) (d : Disk) (path : List Str) (icd : Icd)
    (own : List Str) : Except Err (List Str) :=
  concatOf (x.singles.map (·.commandDeps E n lv d path icd own))

/-- What `Node.scan` adds for the commands (/repo/SCons/Node/__init__.py:1122-1131):
`scan_sources` scans, and adds the programs, only if there are sources
(Executor.py:476-479); `scan_targets` is called if there is a target scanner. -/
def Exec.scanned (x : Exec) (E : Env) (n : Nat) (lv : Vars) (d : Disk) (path : List Str) (icd : Icd)
    (own : List Str) (hasSources targetScanner : Bool) : Except Err (List Str) :=
  if hasSources || targetScanner then x.commandDeps E n lv d path icd own else .ok []

end Verif.Sgn
