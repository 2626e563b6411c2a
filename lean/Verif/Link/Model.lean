import Mathlib.Data.List.Basic

/-!
# Linking (C117): the model

Models `SharedFlagChecker` and the emitters that set the flag it looks at (SCons/Defaults.py 96-118, SCons/Tool/linkCommon/__init__.py 161-171), and the choice of the linker: `smart_link` (linkCommon/__init__.py 130-158),
`iscplusplus` (SCons/Tool/cxx.py 35-52), `isfortran` (SCons/Tool/FortranCommon.py 39-59), `isD` (SCons/Tool/DCommon.py 36-44), with the assignments `smart_link` makes to the environment.

Simplified: nodes are numbers, for the suffixes of names see C111; of the environment only what these functions look at; the command texts are names; without override keywords, so that the environment `smart_link` gets is the
user's (SCons/Executor.py `get_build_env`, SCons/Environment.py `Override`).
-/

namespace Verif.Link

/-! ## Static and shared objects -/

/-- `node.attributes.shared`: not there, or false (`False`, `None`), or true. -/
abbrev Attrs := Nat → Option Bool

/-- Calls of builders: `Object`, `SharedObject`, `SharedLibrary` or `LoadableModule`, another (`StaticLibrary`, `Command`), with their targets. -/
inductive Call where
  | object (ts : List Nat)
  | sharedObject (ts : List Nat)
  | sharedLib (ts : List Nat)
  | other (ts : List Nat)
  deriving DecidableEq, Repr

def setAll (a : Attrs) (v : Bool) : List Nat → Attrs
  | [] => a
  | t :: ts => setAll (fun n => if n = t then some v else a n) v ts

/-- The emitters: `StaticObjectEmitter`, `SharedObjectEmitter` (Defaults.py 96-105), `lib_emitter` (linkCommon/__init__.py 161-171). -/
def emit (a : Attrs) : Call → Attrs
  | .object ts => setAll a false ts
  | .sharedObject ts => setAll a true ts
  | .sharedLib ts => setAll a true ts
  | .other _ => a

/-- Values of `STATIC_AND_SHARED_OBJECTS_ARE_THE_SAME`. -/
inductive Val where
  | unset
  | none
  | bool (b : Bool)
  | int (n : Int)
  | str (s : String)
  deriving DecidableEq, Repr

/-- What `env.subst('$…')` makes of it. -/
def text : Val → String
  | .unset | .none => ""
  | .bool b => if b then "True" else "False"
  | .int n => toString n
  | .str s => s

/-- `SharedFlagChecker` (Defaults.py 108-118): the source that is complained about. -/
def checker (a : Attrs) (v : Val) : List Nat → Option Nat
  | [] => none
  | s :: ss =>
    if text v = "0" ∨ text v = "" ∨ text v = "False" then
      if (a s).getD false then checker a v ss else some s
    else none

/-! ## The linker -/

/-- A source of a program: the suffixes of its own sources (`s.sources`). -/
structure Src where
  sources : List String
  deriving DecidableEq, Repr

inductive Linker where
  | cc | cxx | fortran | dc
  deriving DecidableEq, Repr

/-- cxx.py 35-41, on a system where names have case. -/
def cxxSuffixes : List String := [".cpp", ".cc", ".cxx", ".c++", ".C++", ".mm", ".C"]

/-- The loop that all three functions have. -/
def anyFirst (ok : String → Bool) : List Src → Bool
  | [] => false
  | s :: ss =>
    match s.sources with
    | e :: _ => if ok e then true else anyFirst ok ss
    | [] => anyFirst ok ss

/-- `FORTRANSUFFIXES`; whether a D tool has set `DLINKCOM` and `SHDLINKCOM`; whether `LINKCOM` now is `DLINKCOM`. -/
structure Env where
  fortran : Option (List String)
  dTool : Bool
  dLink : Bool
  deriving DecidableEq, Repr

def isCplusplus (ss : List Src) : Bool := anyFirst (fun e => e ∈ cxxSuffixes) ss

def isFortran (E : Env) (ss : List Src) : Bool :=
  match E.fortran with
  | none => false
  | some l => anyFirst (fun e => e ∈ l) ss

def isD (ss : List Src) : Bool := anyFirst (fun e => e = ".d") ss

/-- `smart_link` (linkCommon/__init__.py 130-158); `none` for the KeyError. -/
def smartLink (E : Env) (ss : List Src) : Option Linker × Env :=
  if isCplusplus ss && isFortran E ss && !isD ss then (some .cxx, E)
  else if isD ss then
    if E.dTool then (some .dc, { E with dLink := true }) else (none, E)
  else if isFortran E ss then (some .fortran, E)
  else if isCplusplus ss then (some .cxx, E)
  else (some .cc, E)

/-- The command of a program: the general one with a linker, or that of the D tool. -/
inductive Cmd where
  | link (l : Linker)
  | dLink
  deriving DecidableEq, Repr

/-- `$LINKCOM` is expanded, for the signature or to be run: its text has `$LINK`, which is `$SMARTLINK` (SCons/Tool/link.py 50-51); the text of the D tools has not (dmd.py 133, gdc.py 102, ldc.py 108). -/
def expand (E : Env) (ss : List Src) : Option Cmd × Env :=
  if E.dLink then (some .dLink, E)
  else
    match smartLink E ss with
    | (some l, E') => (some (.link l), E')
    | (none, E') => (none, E')

/-- Programs one after the other. -/
def expands (E : Env) : List (List Src) → List (Option Cmd) × Env
  | [] => ([], E)
  | p :: ps =>
    let (c, E') := expand E p
    let (cs, E'') := expands E' ps
    (c :: cs, E'')

end Verif.Link
