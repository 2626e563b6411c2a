/-!
# Versioned shared libraries

`SCons/Tool/linkCommon/SharedLibrary.py` 30–197, `SCons/Tool/linkCommon/__init__.py` 48–100, `SCons/Tool/install.py` 187–236,
`SCons/Util/__init__.py` 159–170 (`splitext`), 974–996 (`adjustixes`), `SCons/Node/FS.py` 3161–3171 (`File.prepare`),
`SCons/Environment.py` 2898–2920 (`SideEffect` makes the links precious).

Simplifications: one library, as one target, on a POSIX system; one directory at a time (the links are made in the directory of the
library), so that names have no `/` in them and links say names; values of variables are texts without `$`.
-/

namespace Verif.ShLib

abbrev Str := List Char

/-- The construction variables. -/
structure Vars where
  /-- `SHLIBPREFIX` -/
  pre : Str
  /-- `SHLIBSUFFIX` -/
  suf : Str
  /-- `SHLIBVERSION`; empty: not set -/
  version : Str
  /-- `SOVERSION` -/
  soversion : Option Str
  /-- `SONAME` -/
  soname : Option Str
  /-- `SHLIBNOVERSIONSYMLINKS` is `1`, `True` or `true` -/
  nolinks : Bool
deriving DecidableEq, Repr

/-- What follows the last dot, if there is one. -/
def afterDot : Str → Option Str
  | [] => none
  | c :: r => match afterDot r with
    | some x => some x
    | none => if c = '.' then some r else none

/-- Is there an extension, for `splitext`? One of digits only does not count; `''.isdigit()` is false. -/
def hasExt (n : Str) : Bool :=
  match afterDot n with
  | none => false
  | some x => !(decide (x ≠ []) && x.all Char.isDigit)

/-- `adjustixes`, for a name without a directory. -/
def adjustixes (n pre suf : Str) : Str :=
  let n1 := if pre ≠ [] ∧ (¬ pre <+: n ∨ n = pre) then pre ++ n else n
  if suf ≠ [] ∧ ¬ suf <:+ n1 ∧ hasExt n1 = false then n1 ++ suf else n1

/-- `$_SHLIBSUFFIX`: `${SHLIBSUFFIX}${_SHLIBVERSION}`, 181, 189. -/
def Vars.libSuffix (v : Vars) : Str := v.suf ++ (if v.version = [] then [] else '.' :: v.version)

/-- The name of the library that `SharedLibrary(n)` makes. -/
def Vars.libName (v : Vars) (n : Str) : Str := adjustixes n v.pre v.libSuffix

/-- `_get_shlib_stem`, 114–149. -/
def Vars.stem (v : Vars) (lib : Str) : Str :=
  let n := if v.libSuffix ≠ [] ∧ v.libSuffix <:+ lib then lib.take (lib.length - v.libSuffix.length) else lib
  if v.pre ≠ [] ∧ v.pre <+: n ∧ n ≠ v.pre then n.drop v.pre.length else n

/-- `shlibversion.split(".")[0]`, 95 -/
def major (ver : Str) : Str := ver.takeWhile fun c => decide (c ≠ '.')

/-- `_soversion`, 87–97; an empty `SHLIBVERSION` counts as not set here. -/
def Vars.sover (v : Vars) : Str :=
  match v.soversion with
  | some s => '.' :: s
  | none => if v.version = [] then [] else '.' :: major v.version

/-- `_soname`, 100–111; `none`: a `UserError`. -/
def Vars.so (v : Vars) (lib : Str) : Option Str :=
  match v.soname with
  | some s => if v.soversion.isSome then none else some s
  | none => some (v.pre ++ v.stem lib ++ v.suf ++ v.sover)

/-- `$SHLIB_NOVERSION_SYMLINK`, 174 -/
def Vars.dev (v : Vars) (lib : Str) : Str := v.pre ++ v.stem lib ++ v.suf

/-- `shlib_symlink_emitter`, 30–85: the links, each with what it leads to. -/
def Vars.links (v : Vars) (lib : Str) : Option (List (Str × Str)) :=
  if v.nolinks then some []
  else if v.version = [] then some []
  else match v.so lib with
    | none => none
    | some s => some ((if s ≠ lib then [(s, lib)] else []) ++ [(v.dev lib, lib)])

/-! ## In a directory -/

inductive Obj where
  /-- a file; for a library, the name that the dynamic linker is to look for -/
  | file (content : Nat) (soname : Option Str)
  | link (to : Str)
  | dir
deriving DecidableEq, Repr

abbrev Dir := Str → Option Obj

def Dir.set (d : Dir) (n : Str) (o : Option Obj) : Dir := fun m => if m = n then o else d m

/-- `CreateLibSymlinks`, 69–92; the Boolean: no exception? -/
def createLinks (d : Dir) : List (Str × Str) → Dir × Bool
  | [] => (d, true)
  | (l, t) :: r =>
    let d1 := match d l with
      | some (.link _) => d.set l none
      | _ => d
    match d1 l with
    | some _ => (d1, false)
    | none => createLinks (d1.set l (some (.link t))) r

/-- Building the library: `prepare` removes what is there (the links are precious, and stay), the linker writes the library, with the
`-soname` flag if there is a version (`__libversionflags`, Defaults.py 686–702), and the links are made. Linking succeeds. -/
def build (v : Vars) (lib : Str) (content : Nat) (d : Dir) : Dir × Bool :=
  match v.links lib with
  | none => (d, false)
  | some links =>
    match d lib with
    | some .dir => (d, false)
    | _ => createLinks ((d.set lib none).set lib (some (.file content (if v.version = [] then none else v.so lib)))) links

/-- `InstallVersionedLib`: `copyFuncVersionedLib` and `installShlibLinks` in the destination directory; `links`: those of the library
(`attributes.shliblinks`), which are only names here. -/
def install (links : List (Str × Str)) (lib : Str) (o : Obj) (d : Dir) : Dir × Bool :=
  match d lib with
  | some .dir => (d, false)
  | _ => createLinks ((d.set lib none).set lib (some o)) links

/-- A library that is taken from the cache: the action, and so `LibSymlinksAction`, is not run (`CacheRetrieveFunc`, CacheDir.py 43–75). -/
def retrieve (lib : Str) (o : Obj) (d : Dir) : Dir := d.set lib (some o)

/-- `EmitLibSymlinks`, 48–66: what is removed with the library; and `scons -c`. -/
def clean (links : List (Str × Str)) (lib : Str) (d : Dir) : Dir :=
  ((links.map Prod.fst ++ [lib]).filter fun x => decide (x ≠ lib)).foldl (fun d x => d.set x none) (d.set lib none)

/-! ## Specification -/

/-- What one gets who opens a name: links are followed, up to forty. -/
def Dir.openF (d : Dir) : Nat → Str → Option Obj
  | 0, _ => none
  | n + 1, x => match d x with
    | some (.link t) => d.openF n t
    | o => o

def Dir.open (d : Dir) (x : Str) : Option Obj := d.openF 40 x

end Verif.ShLib
