import Mathlib.Data.List.Basic

/-!
# Where Install puts files (C130): the model

Models `DESTDIR_factory`, `InstallBuilderWrapper`, `InstallAsBuilderWrapper`, `add_targets_to_INSTALLED_FILES` (SCons/Tool/install.py 310-319, 337-399), `FindInstalledFiles` (SCons/Environment.py 3005-3010), with `make_path_relative` (Util/__init__.py 1257-1269) and
what `arg2nodes` (Environment.py 692-745) and `FS._lookup` (Node/FS.py 1334-1420) make of a text.

Simplified: POSIX; a path is the list of its names; variables are expanded and flattened (`arg2nodes`), no text is the name of an alias.  What copying does is C81.
-/

namespace Verif.InstTo

abbrev Str := List Char
abbrev Path := List Str

/-- A directory or file: a text with names, which is relative, begins with `/` or with `#`; or a node. -/
inductive Arg where
  | rel (cs : List Str)
  | abs (cs : List Str)
  | top (cs : List Str)
  | node (p : Path)

structure World where
  cwd : Path
  top : Path
  /-- `--install-sandbox` -/
  sandbox : Option Path

/-- One name of a path. -/
def step (p : Path) (c : Str) : Path := if c = "..".toList then p.dropLast else if c = ".".toList then p else p ++ [c]

/-- `target_factory.Dir` or `.Entry`: `env.fs`, or `DESTDIR_factory` (install.py 345-351, 367-371).  A node is not looked up (`arg2nodes`). -/
def World.place (W : World) : Arg → Path
  | .node p => p
  | .rel cs => cs.foldl step (W.sandbox.getD W.cwd)
  | .abs cs => cs.foldl step (W.sandbox.getD [])
  | .top cs => cs.foldl step W.top

/-- `src.name` -/
def name (p : Path) : Str := p.getLast?.getD []

/-- `InstallBuilderWrapper` (install.py 362-390): targets, each with its source. -/
def World.install (W : World) (dirs : List Arg) (srcs : List Path) : List (Path × Path) :=
  dirs.flatMap fun d => srcs.map fun s => (W.place d ++ [name s], s)

/-- `InstallAsBuilderWrapper` (install.py 392-399): `map` of two lists. -/
def World.installAs (W : World) (targets : List Arg) (srcs : List Path) : List (Path × Path) :=
  (srcs.zip targets).map fun x => (W.place x.2, x.1)

/-! ## The files installed -/

/-- `list(dict.fromkeys(l))` -/
def uniquer : List Path → List Path
  | [] => []
  | x :: l => x :: (uniquer l).filter (· ≠ x)

/-- `_INSTALLED_FILES`, `_UNIQUE_INSTALLED_FILES`. -/
structure State where
  files : List Path
  unique : Option (List Path)

def State.init : State := ⟨[], none⟩

inductive Op where
  /-- A call of Install or InstallAs, with its targets. -/
  | call (targets : List Path)
  /-- FindInstalledFiles -/
  | query
  /-- The list that FindInstalledFiles returned is changed by its caller. -/
  | change (l : List Path)

/-- The answer of `FindInstalledFiles`. -/
def State.answer (s : State) : List Path := s.unique.getD (uniquer s.files)

def State.step (s : State) : Op → State
  | .call ts => ⟨s.files ++ ts, none⟩
  | .query => ⟨s.files, some s.answer⟩
  | .change l => ⟨s.files, s.unique.map fun _ => l⟩

def run (ops : List Op) : State := ops.foldl State.step .init

end Verif.InstTo
