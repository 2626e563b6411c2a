import Mathlib.Data.List.Basic

/-!
# The scanner for Java class paths (C121): the model

Models `SCons/Scanner/Java.py` (25-105), `pathopt` of `SCons/Tool/javac.py` (136-160), which makes `-classpath`, and the walks over directories: `os.walk` of the disk and `Dir.walk` (SCons/Node/FS.py 2198-2222) of the nodes.

Simplified: paths are texts, relative to where SCons runs; the tree on the disk and that of the nodes are given for each path; `Glob`, which is modelled in C69, is a parameter; so is the expansion of variables, which is taken to
give the command the same texts as the scanner; nested lists have been made flat.
-/

namespace Verif.JavaCp

abbrev Str := List Char

/-- What a directory has: files, directories, links to directories. -/
inductive Ent where
  | file (name : Str)
  | dir (name : Str) (es : List Ent)
  | link (name : Str) (es : List Ent)

/-- An element of a path: a text, or a node, which is a path. -/
inductive Elem where
  | str (s : Str)
  | node (p : Str)

inductive Val where
  | str (s : Str)
  | list (l : List Elem)

structure World where
  /-- `env.subst` -/
  subst : Str → Str
  /-- What the directory of this name has on the disk; `none` when there is none. -/
  disk : Str → Option (List Ent)
  /-- What the node of this name has for entries, `.` and `..` aside. -/
  mem : Str → List Ent
  /-- `env.Glob` -/
  glob : Str → List Str
  pathsep : Char

/-- `s.split(sep)` -/
def split (sep : Char) : Str → List Str
  | [] => [[]]
  | c :: t =>
    if c = sep then [] :: split sep t
    else match split sep t with
      | x :: xs => (c :: x) :: xs
      | [] => [[c]]

/-- `os.path.join(d, n)`, for a directory that does not end with a slash. -/
def join (d n : Str) : Str := d ++ '/' :: n

/-- `fname.endswith(".class")` -/
def isClass (n : Str) : Bool := ".class".toList.isSuffixOf n

mutual
/-- `os.walk` with `_collect_classes` (Java.py 55-58, 91-92): links to directories are among the directories, and not entered.  Simplified: what is found in the order of the entries. -/
def Ent.walk (d : Str) : Ent → List Str
  | .file n => if isClass n then [join d n] else []
  | .dir n es => walkAll (join d n) es
  | .link _ _ => []
def walkAll (d : Str) : List Ent → List Str
  | [] => []
  | e :: r => e.walk d ++ walkAll d r
end

mutual
/-- `Dir.walk` with `_collect_classes` (FS.py 2198-2222, Java.py 89): the names of directories are among those of the files. -/
def Ent.walkMem (d : Str) : Ent → List Str
  | .file n => if isClass n then [join d n] else []
  | .dir n es => (if isClass n then [join d n] else []) ++ walkMemAll (join d n) es
  | .link n es => (if isClass n then [join d n] else []) ++ walkMemAll (join d n) es
def walkMemAll (d : Str) : List Ent → List Str
  | [] => []
  | e :: r => e.walkMem d ++ walkMemAll d r
end

/-- What follows the last slash. -/
def base (s : Str) : Str := (s.reverse.takeWhile (· ≠ '/')).reverse

/-- `os.path.splitext(s)[1]` (posixpath): from the last dot of the last name, unless there are only dots before it. -/
def ext (s : Str) : Str :=
  let b := (base s).dropWhile (· = '.')
  if '.' ∈ b then '.' :: (b.reverse.takeWhile (· ≠ '.')).reverse else []

/-- `_subst_paths` (Java.py 33-52). -/
def World.paths (W : World) : Val → List Elem
  | .str s => (split W.pathsep (W.subst s)).map .str
  | .list l => l.map fun
    | .str s => .str (W.subst s)
    | .node p => .node p

/-- What a directory of the class path, or something else, gives (Java.py 85-95). -/
def World.one (W : World) (lib : Str) : List Str :=
  match W.disk lib with
  | some es => walkMemAll lib (W.mem lib) ++ walkAll lib es
  | none => [lib]

/-- One element of the path (Java.py 76-95). -/
def World.elem (W : World) : Elem → List Str
  | .str s => if '*' ∈ s then (W.glob s).flatMap W.one else W.one s
  | .node p => W.one p

def keeps (x : Str) : Bool := ext x = ".class".toList ∨ ext x = ".zip".toList ∨ ext x = ".jar".toList

/-- `scan` (Java.py 61-97), for the values of `JAVACLASSPATH` and `JAVAPROCESSORPATH`. -/
def World.scan (W : World) (cp pp : Val) : List Str := ((W.paths cp ++ W.paths pp).flatMap W.elem).filter keeps

/-- `sep.join(l)` -/
def joinWith (sep : Char) : List Str → Str
  | [] => []
  | [a] => a
  | a :: b :: l => a ++ sep :: joinWith sep (b :: l)

/-- The text after `-classpath` (javac.py 146-160); `none`: there is no such option. -/
def World.option (W : World) : Val → Option Str
  | .str [] => none
  | .str s => some (W.subst s)
  | .list [] => none
  | .list l => some (joinWith W.pathsep (l.map fun
    | .str s => W.subst s
    | .node p => p))

end Verif.JavaCp
