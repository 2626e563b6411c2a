import Verif.Scan.Model
/-!
# C87: the default scanner for C and C++

The regular expression of `CScanner` (/repo/SCons/Scanner/C.py, `CScanner`), with
`re.M` and `findall` (/repo/SCons/Scanner/__init__.py: `Classic.__init__`,
`find_include_names`), and `ClassicCPP.find_include`.

    ^[ \t]*#[ \t]*(?:include|import)[ \t]*(<|")([^>"]+)(>|")

Simplifications: the order of the result (`sorted`) is left out, files are looked up by
an arbitrary function on directories (`Dir.srcdir_find_file`), and `find_file` is
modelled without its memo.
-/
namespace Verif.CScan

abbrev Str := List Char

/-- `[ \t]`. -/
def blank (c : Char) : Bool := c = ' ' || c = '\t'

/-- The text after a fixed prefix. -/
def after : Str → Str → Option Str
  | [], s => some s
  | p :: ps, c :: s => if p = c then after ps s else none
  | _ :: _, [] => none

def kwInclude : Str := ['i', 'n', 'c', 'l', 'u', 'd', 'e']
def kwImport : Str := ['i', 'm', 'p', 'o', 'r', 't']

/-- `(?:include|import)`. -/
def afterKeyword (s : Str) : Option Str :=
  match after kwInclude s with
  | some r => some r
  | none => after kwImport s

/-- The expression up to the first bracket: the bracket and the text after it. No part
can match in two ways, so there is no backtracking. -/
def startOf (s : Str) : Option (Char × Str) :=
  match s.dropWhile blank with
  | '#' :: s1 =>
    match afterKeyword (s1.dropWhile blank) with
    | none => none
    | some s2 =>
      match s2.dropWhile blank with
      | c :: s3 => if c = '<' || c = '"' then some (c, s3) else none
      | [] => none
  | _ => none

/-- `[^>"]`. -/
def inName (c : Char) : Bool := c ≠ '>' && c ≠ '"'

/-- The whole expression at the beginning of a text: the two groups, and the text after
the match. -/
def matchAt (s : Str) : Option ((Char × Str) × Str) :=
  match startOf s with
  | none => none
  | some (b, r) =>
    let name := r.takeWhile inName
    match r.dropWhile inName with
    | [] => none
    | _ :: rest => if name = [] then none else some ((b, name), rest)

/-- `findall`: `skip` characters belong to the last match; `bol`: `^` matches here. -/
def findFrom : Nat → Bool → Str → List (Char × Str)
  | _, _, [] => []
  | k + 1, _, c :: s => findFrom k (c = '\n') s
  | 0, bol, c :: s =>
    match if bol then matchAt (c :: s) else none with
    | some (cap, rest) => cap :: findFrom (s.length - rest.length) (c = '\n') s
    | none => findFrom 0 (c = '\n') s

/-- `find_include_names`. -/
def findIncludes (text : Str) : List (Char × Str) := findFrom 0 true text

/-- `find_file` (/repo/SCons/Node/FS.py:3783-3827): the first directory that has it. -/
def findFile {D V : Type} (has : D → Str → Option V) (n : Str) : List D → Option V
  | [] => none
  | d :: ds =>
    match has d n with
    | some v => some v
    | none => findFile has n ds

/-- The files of a project. `text`: `none` if there is no such file. -/
structure Proj (D V : Type) where
  text : V → Option Str
  dir : V → D
  has : D → Str → Option V
  path : List D

/-- `ClassicCPP.find_include`. -/
def findInclude {D V : Type} (P : Proj D V) (v : V) (i : Char × Str) : Option V :=
  if i.1 = '"' then findFile P.has i.2 (P.dir v :: P.path)
  else findFile P.has i.2 (P.path ++ [P.dir v])

/-- `Classic.scan` of one file, without the order. -/
def found {D V : Type} (P : Proj D V) (v : V) : List V :=
  match P.text v with
  | none => []
  | some t => (findIncludes t).filterMap (findInclude P v)

/-- The scanner, in the shape of `Scan.Env` (C38): one recursive scanner for all files. -/
def scanEnv {D V : Type} (P : Proj D V) : Scan.Env V Unit :=
  { sel := fun _ _ => some (), envSc := fun _ => some (), found := fun v _ => found P v, recurse := fun _ l => l }

end Verif.CScan
