/-!
# The scanner for Python files

`SCons/Scanner/Python.py` (all).

Simplifications: `\s` is the ASCII part; names in a `from` statement are single file names (no `/`, not empty); files are looked up by
their path from the top directory (variant directories and repositories: C66); the parent of the top directory is itself; the memory
of the names found in a file (`node.includes`) is left out; the order of the result is left out.
-/

namespace Verif.PyScan

abbrev Str := List Char

/-- `\s` -/
def sp (c : Char) : Bool := c == ' ' || (9 ≤ c.toNat && c.toNat ≤ 13) || (28 ≤ c.toNat && c.toNat ≤ 31)

/-- The next `\s*[^\s]*`: `\s` and `[^\s]` exclude each other, so nothing is tried twice. -/
def word (s : Str) : Str := (s.dropWhile sp).takeWhile fun c => !sp c

/-- What follows the next word. -/
def rest (s : Str) : Str := (s.dropWhile sp).dropWhile fun c => !sp c

/-- `import_cre` (line 41) at the beginning of a line: `^\s*import\s+([^\s]+)`; the group and the text after the match. -/
def matchImport (s : Str) : Option (Str × Str) :=
  if word s = "import".toList && word (rest s) ≠ [] then some (word (rest s), rest (rest s)) else none

/-- `from_cre` (line 40) at the beginning of a line: `^\s*from\s+([^\s]+)\s+import\s+(.*)`. After `import` there is white space, and all of
it is taken; the second group ends with the line. -/
def matchFrom (s : Str) : Option ((Str × Str) × Str) :=
  if word s = "from".toList && word (rest s) ≠ [] && word (rest (rest s)) = "import".toList && rest (rest (rest s)) ≠ [] then
    some ((word (rest s), ((rest (rest (rest s))).dropWhile sp).takeWhile fun c => c ≠ '\n'),
      ((rest (rest (rest s))).dropWhile sp).dropWhile fun c => c ≠ '\n')
  else none

/-- `findall` with `re.M`: `skip` characters belong to the last match; `bol`: `^` matches here. -/
def findFrom {A : Type} (m : Str → Option (A × Str)) : Nat → Bool → Str → List A
  | _, _, [] => []
  | k + 1, _, c :: s => findFrom m k (c == '\n') s
  | 0, bol, c :: s =>
    match if bol then m (c :: s) else none with
    | some (a, r) => a :: findFrom m (s.length - r.length) (c == '\n') s
    | none => findFrom m 0 (c == '\n') s

/-- `s.split(sep)` -/
def split (sep : Char) : Str → List Str
  | [] => [[]]
  | c :: r => if c == sep then [] :: split sep r else
    match split sep r with
    | [] => [[c]]
    | x :: l => (c :: x) :: l

/-- `s.strip()` -/
def strip (s : Str) : Str := ((s.dropWhile sp).reverse.dropWhile sp).reverse

/-- The last name without what follows it, 67–69. -/
def cutLast (l : List Str) : List Str :=
  match l.getLast? with
  | none => l
  | some x => if word (rest x) ≠ [] then l.dropLast ++ [word x] else l

/-- `find_include_names`, 53–78. -/
def findNames (text : Str) : List (Str × Option (List Str)) :=
  (findFrom matchFrom 0 true text).map (fun m => (m.1, some (cutLast ((split ',' m.2).map strip)))) ++
  (findFrom matchImport 0 true text).map fun m => (m, none)

/-- A path from the top directory. -/
abbrev Path := List Str

def initPy : Str := "__init__.py".toList
def dotPy : Str := ".py".toList

/-- `find_import`, 81–109. The file, whether it is a package, the directory. -/
def findImport (files : Path → Bool) (p : Path) : List Path → Option (Path × Bool × Path)
  | [] => none
  | d :: ds =>
    if files (d ++ p ++ [initPy]) then some (d ++ p ++ [initPy], true, d)
    else if files (d ++ p.dropLast ++ [p.getLast?.getD [] ++ dotPy]) then some (d ++ p.dropLast ++ [p.getLast?.getD [] ++ dotPy], false, d)
    else findImport files p ds

/-- The files for one statement, once the name has been taken apart: 143–176. -/
def core (files : Path → Bool) (search : List Path) (comps : List Str) (relative : Bool) (names : Option (List Str)) : List Path :=
  if search = [] then [] else
    let hit := if comps = [] then none else findImport files comps search
    let package : Option Path := if comps = [] then search.head? else
      match hit with
      | some (n, true, _) => some n.dropLast
      | _ => none
    let first := match hit with
      | some (n, _, _) => [n]
      | none => []
    let named := match package, names with
      | some p, some l => l.filterMap fun i => (findImport files [i] [p]).map fun x => x.1
      | _, _ => []
    let inits := match hit with
      | some (_, _, d) => if relative then [] else
          ((List.range comps.length).map fun i => d ++ comps.take (i + 1) ++ [initPy]).filter files
      | none => []
    first ++ named ++ inits

/-- The files for one statement, 125–176. -/
def scanOne (files : Path → Bool) (path : List Path) (dir : Path) (m : Str × Option (List Str)) : List Path :=
  let relative := m.1.head? == some '.'
  let stripped := m.1.dropWhile fun c => c == '.'
  let parents := m.1.length - stripped.length - 1
  let search := if relative then [dir.take (dir.length - parents)] else path
  let comps := (split '.' (if relative then stripped else m.1)).filter fun x => x ≠ []
  core files search comps relative m.2

/-- `scan`, 112–178. -/
def scan (files : Path → Bool) (path : List Path) (dir : Path) (text : Str) : List Path :=
  (findNames text).flatMap (scanOne files path dir)

/-- `path_function`, 44–49, before the names become directories: `PYTHONPATH` (nothing if it is not set), then the directory of the
first source. -/
def searchPath (pythonpath : Str) (srcDir : Option Str) : List Str :=
  split ':' pythonpath ++ srcDir.toList

end Verif.PyScan
