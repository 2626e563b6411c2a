import Mathlib.Data.List.Basic

/-!
# The scanner for D (C120): the model

Models `SCons/Scanner/D.py` (37-73): the regular expression for imports, the names taken from what it finds, and the files they are looked for as.

The expression `(?:import\s+)([\w\s=,.]+)(?:\s*:[\s\w,=]+)?(?:;)` is modelled as a function: neither a colon nor a semicolon is in the sets of the two runs, so that each run ends where the set ends, and the only freedom is how many
blanks the first `\s+` takes: all but, if nothing else follows, one.  `\w` and `\s` are parameters.

Simplified: directories are numbers, `find_file` (SCons/Node/FS.py 3783-3831, modelled in C79) is the first of them that has the file.
-/

namespace Verif.DScan

abbrev Str := List Char

/-- `\w` and `\s`. -/
structure Classes where
  word : Char → Bool
  sp : Char → Bool

def imp : Str := "import".toList

/-- `[\w\s=,.]` -/
def Classes.run (C : Classes) (c : Char) : Bool := C.word c || C.sp c || c = '=' || c = ',' || c = '.'

/-- `[\s\w,=]` -/
def Classes.bind (C : Classes) (c : Char) : Bool := C.word c || C.sp c || c = '=' || c = ','

/-- What the group has, of the run after `import`. -/
def group (C : Classes) (r : Str) : Str := if r.dropWhile C.sp = [] then r.drop (r.length - 1) else r.dropWhile C.sp

/-- A match at the beginning of the text: the group, and what follows the match. -/
def matchAt (C : Classes) (t : Str) : Option (Str × Str) :=
  if imp.isPrefixOf t then
    let u := t.drop 6
    let r := u.takeWhile C.run
    if r.length ≥ 2 ∧ (r.take 1).all C.sp then
      match u.dropWhile C.run with
      | ';' :: x => some (group C r, x)
      | ':' :: w =>
        if w.takeWhile C.bind = [] then none
        else match w.dropWhile C.bind with
          | ';' :: x => some (group C r, x)
          | _ => none
      | _ => none
    else none
  else none

/-- `findall`: from left to right, after each match from its end on. -/
def findall (C : Classes) : Nat → Str → List Str
  | 0, _ => []
  | _, [] => []
  | n + 1, c :: t =>
    match matchAt C (c :: t) with
    | some (g, x) => g :: findall C n x
    | none => findall C n t

/-- `s.split(sep)` -/
def split (sep : Char) : Str → List Str
  | [] => [[]]
  | c :: t =>
    if c = sep then [] :: split sep t
    else match split sep t with
      | x :: xs => (c :: x) :: xs
      | [] => [[c]]

/-- `s.strip()` -/
def strip (C : Classes) (s : Str) : Str := ((s.dropWhile C.sp).reverse.dropWhile C.sp).reverse

/-- `find_include_names` (D.py 66-73). -/
def names (C : Classes) (t : Str) : List Str := (findall C t.length t).flatMap fun g => (split ',' g).map fun j => strip C ((split '=' j).getLastD [])

/-- `find_file`: the first directory that has the file. -/
def findFile (has : Nat → Str → Bool) (name : Str) (dirs : List Nat) : Option (Nat × Str) := (dirs.find? fun d => has d name).map fun d => (d, name)

def slashes (m : Str) : Str := m.map fun c => if c = '.' then '/' else c

/-- `find_include` (D.py 53-64). -/
def findInclude (has : Nat → Str → Bool) (m : Str) (srcdir : Nat) (path : List Nat) : Option (Nat × Str) :=
  match findFile has (slashes m ++ ".di".toList) (srcdir :: path) with
  | some f => some f
  | none => findFile has (slashes m ++ ".d".toList) (srcdir :: path)

end Verif.DScan
