/-!
# The Zip builder

`SCons/Tool/zip.py` 47–82 (`_create_zipinfo_for_file`, `zip_builder`), with what it uses of Python's library: `os.walk`,
`posixpath.relpath`, `normpath` and `abspath`, `ZipInfo.from_file`.

Simplifications: POSIX paths; nodes say absolute paths without `.` and `..` (C56); permissions are part of the content; compression
and the bytes of the archive are left out, an archive is its list of members; `os.walk` meets no errors.
-/

namespace Verif.Zip

abbrev Str := List Char
/-- An absolute path, in components. -/
abbrev Path := List Str

/-- What is in the file system. Lists of entries are in the order in which `os.scandir` gives them. -/
inductive Obj where
  /-- a file, or a link to one; the year of its time -/
  | file (content year : Nat)
  | dir (entries : List (Str × Obj))
  /-- a link to a directory with these entries -/
  | link (entries : List (Str × Obj))
  /-- a device, a broken link -/
  | other

/-- `os.walk` (links not followed) from a directory with this path, and the loop over its files, 63–67: the files of the directory
itself (`os.path.isfile`), … -/
def here (p : Path) : List (Str × Obj) → List (Path × Nat × Nat)
  | [] => []
  | (n, .file c y) :: r => (p ++ [n], c, y) :: here p r
  | _ :: r => here p r

mutual
/-- … then its directories, … -/
def below : List (Str × Obj) → Path → List (Path × Nat × Nat)
  | [], _ => []
  | e :: r, p => into e p ++ below r p

def into : Str × Obj → Path → List (Path × Nat × Nat)
  | (n, o), p => inside o (p ++ [n])

/-- … with all that is in them. -/
def inside : Obj → Path → List (Path × Nat × Nat)
  | .dir es, p => here p es ++ below es p
  | _, _ => []
end

def walk (p : Path) (es : List (Str × Obj)) : List (Path × Nat × Nat) := here p es ++ below es p

/-- The files of one source, 61–69; `none`: `open` raises. -/
def filesOf (p : Path) : Obj → Option (List (Path × Nat × Nat))
  | .dir es => some (walk p es)
  | .link es => some (walk p es)
  | .file c y => some [(p, c, y)]
  | .other => none

/-- `text.split('/')` -/
def split : Str → List Str
  | [] => [[]]
  | c :: r => if c = '/' then [] :: split r else
    match split r with
    | [] => [[c]]
    | x :: l => (c :: x) :: l

/-- The loop of `posixpath.normpath` for an absolute path: the components so far, the last one first. -/
def norm : List Str → List Str → List Str
  | out, [] => out.reverse
  | out, c :: r =>
    if c = [] ∨ c = ['.'] then norm out r
    else if c = ['.', '.'] then norm out.tail r
    else norm (c :: out) r

/-- `posixpath.abspath` of a text, in the directory `cwd`. -/
def abspath (cwd : Path) (t : Str) : Path :=
  if t.head? = some '/' then norm [] (split t) else norm [] (cwd ++ split t)

/-- `os.path.commonprefix` of two lists: what is left of each. -/
def common : Path → Path → Path × Path
  | a :: s, b :: p => if a = b then common s p else (a :: s, b :: p)
  | s, p => (s, p)

/-- `posixpath.relpath(p, start)`, both absolute; the empty list stands for `.`. -/
def relpath (start p : Path) : List Str :=
  (common start p).1.map (fun _ => ['.', '.']) ++ (common start p).2

/-- The members of the archive: `zip_builder`, 56–77; `root` is `str(env.get('ZIPROOT', ''))`, 58. `none`: an exception, for a time
before 1980 (`ZipInfo.__init__`), which comes before the time is replaced, 47–52. -/
def members (root : Path) : List (Path × Nat × Nat) → Option (List (List Str × Nat))
  | [] => some []
  | (p, c, y) :: r => if y < 1980 then none else (members root r).map fun l => (relpath root p, c) :: l

/-- The files of all sources, in order. -/
def allFiles : List (Path × Obj) → Option (List (Path × Nat × Nat))
  | [] => some []
  | (p, o) :: r => match filesOf p o, allFiles r with
    | some a, some b => some (a ++ b)
    | _, _ => none

def zip (cwd : Path) (zipRoot : Str) (sources : List (Path × Obj)) : Option (List (List Str × Nat)) :=
  (allFiles sources).bind (members (abspath cwd zipRoot))

end Verif.Zip
