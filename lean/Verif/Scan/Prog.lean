import Verif.Bld.Chain
import Verif.Shell.Ixes

/-!
# C79: libraries

The scanner for programs makes the libraries of `LIBS` that are found in `LIBPATH` dependencies of the program.  Modelled: `SCons/Scanner/Prog.py` 36-101 (`_subst_libs`, `scan`),
`SCons/Node/FS.py` 3783-3831 (`find_file`); `adjustixes` and `splitext` are those of `Bld/Chain`, the flags of the linker those of `Shell/Ixes`.

Simplifications: `LIBS`, `LIBPREFIXES`, `LIBSUFFIXES` and `LIBPATH` after substitution; names of libraries contain no separator; the memo of `find_file` is left out (its key contains name and
path, see C42); whether a directory has a file, or a file that is a target, is a function (see C66).
-/

namespace Verif.Prog

abbrev Text := List Char

/-- An element of `LIBS`: a name, or a node. -/
inductive Lib
  | name (x : Text)
  | node (n : Nat)
  deriving DecidableEq

/-- A dependency: a file found in a directory, or a node. -/
inductive Dep
  | found (dir : Nat) (file : Text)
  | node (n : Nat)
  deriving DecidableEq

structure Env where
  libs : List Lib
  prefixes : List Text
  suffixes : List Text
  libpath : List Nat

/-- `libs.split()`: the words of a text, separated by blanks (Prog.py 39-41). -/
def words : Text → List Text
  | [] => []
  | c :: cs => if c = ' ' then words cs else match cs, words cs with
    | [], _ => [[c]]
    | ' ' :: _, ws => [c] :: ws
    | _, w :: ws => (c :: w) :: ws
    | _, [] => [[c]]

/-- `_subst_libs` (36-51): every text, also one in a list, is split at blanks. -/
def splitLibs (l : List Lib) : List Lib := l.flatMap fun x => match x with
  | .name t => (words t).map .name
  | .node n => [.node n]

/-- `pairs` (79-82): suffixes outside, prefixes inside. -/
def Env.pairs (E : Env) : List (Text × Text) := E.suffixes.flatMap fun s => E.prefixes.map fun p => (p, s)

/-- `find_file` (FS.py 3783-3831): the first directory that has it. -/
def findFile (has : Nat → Text → Bool) (dirs : List Nat) (f : Text) : Option Nat := dirs.find? fun d => has d f

/-- The loop of `scan` (91-100) for one library. -/
def scanOne (has : Nat → Text → Bool) (E : Env) : Lib → List Dep
  | .node n => [.node n]
  | .name x => E.pairs.filterMap fun ps => (findFile has E.libpath (Bld.Chain.adjustixes x ps.1 ps.2 false)).map fun d => .found d (Bld.Chain.adjustixes x ps.1 ps.2 false)

/-- `scan` (53-101). -/
def scan (has : Nat → Text → Bool) (E : Env) : List Dep := (splitLibs E.libs).flatMap (scanOne has E)

/-! ## Specification: the linker -/

/-- The names under which a linker looks for the library of a flag: `-l:file` is the file itself, `-lname` is `lib` + name + one of the suffixes, in the linker's order. -/
def linkerNames (lib : Text) (sufs : List Text) (flag : Text) : List Text :=
  match flag with
  | '-' :: 'l' :: ':' :: f => [f]
  | '-' :: 'l' :: n => sufs.map fun s => lib ++ n ++ s
  | _ => []

/-- The linker takes the first of these names in the first directory that has one of them. -/
def linked (there : Nat → Text → Bool) (dirs : List Nat) (names : List Text) : Option (Nat × Text) :=
  dirs.findSome? fun d => (names.find? fun n => there d n).map fun n => (d, n)

/-- The flag for a library given by name (`_LIBFLAGS`, Tool/link.py 58). -/
def flagOf (lib : Text) (sufs : List Text) (lit x : Text) : List Shell.Ixes.Item := Shell.Ixes.stripIxes ['-', 'l'] [] [lib] sufs lit [.text x]

end Verif.Prog
