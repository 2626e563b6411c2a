import Mathlib.Data.List.Basic

/-!
# The Jar builder (C125): the model

Models `jarSources`, `jarManifest`, `jarFlags`, `Jar` (SCons/Tool/jar.py 46-216), `_JARCOM` (jar.py 238-241), and `Base.get_path` (SCons/Node/FS.py 838-854).

Simplified: a path is the list of its names from the directory of the SConstruct, and a path is one argument of the command, never an option (quoting is C54 and C84); variables are expanded; `JARFLAGS` is split at blanks.
In `Jar`, what `JavaClassFile` and `JavaClassDir` return is given (C91), and so is which texts name directories; their exceptions are left out.
-/

namespace Verif.Jar

abbrev Str := List Char
abbrev Path := List Str

/-- An argument of the command. -/
inductive Arg where
  | word (s : Str)
  | path (p : Path)
  deriving DecidableEq

/-- A source: its path, whether its content begins as a manifest, the directory that `java_classdir` names. -/
structure Source where
  path : Path
  manifest : Bool
  classdir : Option Path
  deriving DecidableEq

/-- `JARFLAGS`, and `JARCHDIR`, perhaps empty, if it is set. -/
structure Env where
  flags : Str
  chdir : Option Path

/-- `get_path(dir)`: the path below the directory, or, if it is not below it, the path. -/
def getPath (p d : Path) : Path := if d.isPrefixOf p then p.drop d.length else p

/-- `_chdir` (jar.py 62-68). -/
def Env.dir (E : Env) (s : Source) : Option Path :=
  match E.chdir with
  | some [] => none
  | some d => some d
  | none => s.classdir

/-- `jarSources` (jar.py 46-76). -/
def Env.sources (E : Env) (ss : List Source) : List Arg :=
  ss.flatMap fun s =>
    if s.manifest then []
    else match E.dir s with
      | some d => [.word "-C".toList, .path d, .path (getPath s.path d)]
      | none => [.path s.path]

/-- `jarManifest` (jar.py 78-84). -/
def manifest (ss : List Source) : List Arg :=
  match ss.find? (·.manifest) with
  | some s => [.path s.path]
  | none => []

/-- `jarFlags` (jar.py 86-96). -/
def Env.flagsFor (E : Env) (ss : List Source) : Str :=
  if ss.any (·.manifest) ∧ 'm' ∉ E.flags then E.flags ++ ['m'] else E.flags

/-- The words of a text. -/
def words : Str → List Str
  | [] => []
  | c :: t =>
    let ws := words t
    if c = ' ' then ws
    else if t = [] ∨ t.head? = some ' ' then [c] :: ws
    else match ws with
      | w :: ws => (c :: w) :: ws
      | [] => [[c]]

/-- `$JAR $_JARFLAGS $TARGET $_JARMANIFEST $_JARSOURCES`, after the program. -/
def Env.command (E : Env) (target : Path) (ss : List Source) : List Arg :=
  (words (E.flagsFor ss)).map .word ++ [.path target] ++ manifest ss ++ E.sources ss

/-! ## The pseudo-builder -/

/-- What `target` is. -/
inductive Targets where
  | none
  | one (t : Str)
  | many (ts : List Str)

/-- What `source` is. -/
inductive Sources where
  | one (s : Str)
  | many (ss : List Str)

structure World where
  isDir : Str → Bool
  java : Str → Bool
  fileClasses : Str → List Str
  dirClasses : Str → List Str
  stem : Str → Str
  suffix : Str

/-- `file_to_class`, `dir_to_class` (jar.py 157-177). -/
def World.convert (W : World) (s : Str) : List Str :=
  if W.isDir s then
    if W.dirClasses s = [] then [s] else W.dirClasses s
  else if W.java s then W.fileClasses s else [s]

/-- The rest, once there is a target (jar.py 142-216): a call of `JarFile`. -/
def World.call (W : World) (ts : List Str) : Sources → List Str × List Str
  | .one s => (ts, W.convert s)
  | .many ss => (ts, ss.flatMap W.convert)

/-- The implicit target (jar.py 128-140): `source[0]` of a text is its first character; `none` stands for the branch of the exception. -/
def World.implicit (W : World) : Sources → Option Str
  | .one [] => none
  | .one (c :: _) => some (W.stem [c] ++ W.suffix)
  | .many [] => none
  | .many (s :: _) => some (W.stem s ++ W.suffix)

/-- `Jar` (jar.py 98-216): the calls of `JarFile`, each with its targets and sources; `cwd` is the name of the directory. -/
def World.jar (W : World) (cwd : Str) (t : Targets) (s : Sources) : List (List Str × List Str) :=
  match t, s with
  | .many ts, .many [] => [W.call [(W.implicit (.many ts)).getD (cwd ++ W.suffix)] (.many ts)]
  | .many ts, .many ss => ts.map fun t => W.call [t] (.many ss)
  | .many ts, s => [W.call ts s]
  | .one t, s => [W.call [t] s]
  | .none, s => [W.call [(W.implicit s).getD (cwd ++ W.suffix)] s]

end Verif.Jar
