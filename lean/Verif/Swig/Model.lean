import Mathlib.Data.List.Basic

/-!
# The emitter of SWIG (C123): the model

Models `_reModule`, `_find_modules`, `_add_director_header_targets` and `_swigEmitter` (SCons/Tool/swig.py 63-143).

The expression `%module(\s*\(.*\))?\s+("?)(\S+)\2` is modelled as a function that tries the ends of the parentheses from the last one of the line to the first, then no parentheses.  `\s` is a parameter.

Simplified: a file is a directory and a name in it; the flags are the words of the expanded variable; sources that cannot be read are left out; the suffix of C++ wrappers is not empty (for an empty one `n[-0:]` is the whole name).
-/

namespace Verif.Swig

abbrev Str := List Char
abbrev File := Str × Str

variable (sp : Char → Bool)

def kw : Str := "%module".toList

/-- The longest beginning of a run, not empty, that a quote follows in it: the run up to its last quote. -/
def quoted : Str → Option (Str × Str)
  | [] => none
  | c :: r =>
    match quoted r with
    | some (n, x) => some (c :: n, x)
    | none => match r with
      | '"' :: x => some ([c], x)
      | _ => none

/-- `\s+("?)(\S+)\2`: the name, and what follows. -/
def name (v : Str) : Option (Str × Str) :=
  if v.takeWhile sp = [] then none
  else
    let w := v.dropWhile sp
    let plain := if w = [] then none else some (w.takeWhile (fun c => !sp c), w.dropWhile (fun c => !sp c))
    match w with
    | '"' :: x =>
      match quoted (x.takeWhile (fun c => !sp c)) with
      | some (n, y) => some (n, y ++ x.dropWhile (fun c => !sp c))
      | none => plain
    | _ => plain

/-- `.*\)` and the rest, from the text after the opening parenthesis: the last parenthesis of the line that works.  What is in the parentheses, the name, what follows. -/
def parens : Str → Option (Str × Str × Str)
  | [] => none
  | c :: t =>
    if c = '\n' then none
    else match parens t with
      | some (o, n, x) => some (c :: o, n, x)
      | none => if c = ')' then (name sp t).map fun p => ([], p.1, p.2) else none

/-- A match at the beginning of the text: the first group, the name, what follows. -/
def matchAt (t : Str) : Option (Str × Str × Str) :=
  if kw.isPrefixOf t then
    let u := t.drop 7
    let plain := (name sp u).map fun p => (([] : Str), p.1, p.2)
    match u.dropWhile sp with
    | '(' :: v =>
      match parens sp v with
      | some (o, n, x) => some (u.takeWhile sp ++ '(' :: o ++ [')'], n, x)
      | none => plain
    | _ => plain
  else none

/-- `findall`: first group and name of each. -/
def findall : Nat → Str → List (Str × Str)
  | 0, _ => []
  | _, [] => []
  | n + 1, c :: t =>
    match matchAt sp (c :: t) with
    | some (o, m, x) => (o, m) :: findall n x
    | none => findall n t

/-- `'directors' in m[0]` -/
def hasDirectors (o : Str) : Bool := o.tails.any fun t => "directors".toList.isPrefixOf t

/-- `_find_modules` (swig.py 65-83). -/
def findModules (t : Str) : List Str × Bool := ((findall sp t.length t).map (·.2), (findall sp t.length t).any fun p => hasDirectors p.1)

structure Env where
  flags : List Str
  outdir : Str
  cxxSuffix : Str
  directorSuffix : Str
  cwd : Str

/-- `_add_director_header_targets` (swig.py 85-94). -/
def addHeaders (E : Env) (ts : List File) : List File :=
  ts ++ ts.filterMap fun f => if E.cxxSuffix.isSuffixOf f.2 then some (f.1, f.2.take (f.2.length - E.cxxSuffix.length) ++ E.directorSuffix) else none

/-- What one source adds (swig.py 99-142); `d` is the directory of the first target. -/
def one (E : Env) (d : Str) (ts : List File) (src : Str) : List File :=
  let (ms, dirs) := findModules sp src
  let py := "-python".toList ∈ E.flags ∧ "-noproxy".toList ∉ E.flags
  let ts := if py then (if dirs then addHeaders E ts else ts) ++ ms.map fun m => (if E.outdir = [] then d else E.outdir, m ++ ".py".toList) else ts
  if "-java".toList ∈ E.flags then
    (if dirs then addHeaders E ts else ts) ++ ms.flatMap fun m => [m ++ ".java".toList, m ++ "JNI.java".toList].map fun n => (if E.outdir = [] then E.cwd else E.outdir, n)
  else ts

/-- `_swigEmitter` (swig.py 96-143), with the texts of the sources. -/
def emit (E : Env) (t0 : File) (ts : List File) (srcs : List Str) : List File := srcs.foldl (one sp E t0.1) (t0 :: ts)

end Verif.Swig
