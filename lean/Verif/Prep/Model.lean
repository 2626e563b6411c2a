import Mathlib.Data.List.Basic

/-!
# What is done before a command is run (C116): the model

Models `Task.prepare` (SCons/Taskmaster/__init__.py 160-206), `Executor.prepare` and `get_action_targets` (SCons/Executor.py 413-421, 267-273), `Node.prepare`, `missing`, `is_derived`
(SCons/Node/__init__.py 728-758, 1286-1289, 122-126), and `File.prepare`, `File._rmv_existing`, `File._createDir`, `Dir._create`, `UnlinkFunc`, `MkdirFunc`, `Base.stat`, `Base.islink` (SCons/Node/FS.py 3161-3176,
3145-3151, 2996-2999, 1903-1931, 342-350, 356-374, 750-761, 811-812).

Simplified: targets and side effects are files, and the action is one for all targets of the task (`$TARGETS`); directories have the builder every directory has; `islink` looks at the disk (its own memory is left out);
sources are not duplicated into variant directories; a link that leads somewhere is what it leads to; file operations fail only for the reasons given.
-/

namespace Verif.Prep

/-- A path, the innermost name first; `[]` is the root. -/
abbrev Path := List String

/-- What is at a path: a file, a directory, a link that leads nowhere. -/
inductive Ent where
  | file (c : Nat)
  | dir
  | dangling
  deriving DecidableEq, Repr

abbrev Disk := Path → Option Ent

/-- `os.stat` gives something. -/
def stat (d : Disk) (p : Path) : Bool :=
  match d p with
  | some (.file _) | some .dir => true
  | _ => false

/-- `os.path.islink` of what `stat` does not see. -/
def isLink (d : Disk) (p : Path) : Bool := decide (d p = some .dangling)

def upd {α : Type} (f : Path → α) (p : Path) (v : α) : Path → α := fun q => if q = p then v else f q

/-- The attributes of nodes: `is_derived`, `precious`, `linked`, whether a repository has it, the state `up_to_date`, `depends`, `implicit`, `side_effects`. -/
structure Graph where
  derived : Path → Bool
  precious : Path → Bool
  linked : Path → Bool
  inRepo : Path → Bool
  upToDate : Path → Bool
  depends : Path → List Path
  implicit : Path → List Path
  sides : Path → List Path

/-- The disk, what nodes remember of it (`_memo['stat']`), and which directories were made (`nullify`, Executor.py 434-437). -/
structure St where
  disk : Disk
  memo : Path → Option Bool
  made : Path → Bool

inductive Err where
  | noSource (s : Path)        -- StopError of Executor.prepare
  | noDepends (d : Path)       -- StopError of Node.prepare
  | noImplicit (i : Path)
  | noDrive
  | os                         -- BuildError of Unlink or Mkdir
  deriving DecidableEq, Repr

/-- `exists()` (`exists_base` of SCons/Node/__init__.py 137-138, FS.py 750-761). -/
def exists? (s : St) (p : Path) : Bool × St :=
  match s.memo p with
  | some b => (b, s)
  | none => (stat s.disk p, { s with memo := upd s.memo p (some (stat s.disk p)) })

/-- `missing()` (Node/__init__.py 1286-1289). -/
def missing (G : Graph) (s : St) (p : Path) : Bool × St :=
  if G.derived p then (false, s)
  else if G.linked p then (false, s)
  else
    let (b, s) := exists? s p
    (!(b || G.inRepo p), s)

/-- The loops `for s in …: if s.missing(): raise` (Executor.py 418-421, Node/__init__.py 749-757). -/
def checkAll (G : Graph) (err : Path → Err) (s : St) : List Path → Except Err Unit × St
  | [] => (.ok (), s)
  | p :: ps =>
    let (m, s) := missing G s p
    if m then (.error (err p), s) else checkAll G err s ps

/-- The first loop of `Dir._create` (FS.py 1906-1917): directories that are not there, innermost first. -/
def climb (s : St) : Path → Except Err (List Path) × St
  | [] =>
    let (b, s) := exists? s []
    if b then (.ok [], s) else (.error .noDrive, s)
  | c :: r =>
    let (b, s) := exists? s (c :: r)
    if b then (.ok [], s)
    else
      match climb s r with
      | (.ok l, s) => (.ok ((c :: r) :: l), s)
      | (.error e, s) => (.error e, s)

/-- `os.mkdir`, with FileExistsError ignored (FS.py 367-372). -/
def mkdir (d : Disk) : Path → Option Disk
  | [] => some d
  | c :: r =>
    if d (c :: r) ≠ none then some d
    else if d r = some .dir then some (upd d (c :: r) (some .dir))
    else none

/-- The body of the second loop of `Dir._create` (FS.py 1919-1931). `ex` is false under -n. -/
def buildDir (ex : Bool) (s : St) (p : Path) : Except Err Unit × St :=
  if s.made p || !ex then (.ok (), { s with made := upd s.made p true, memo := upd s.memo p none })
  else
    let (b, s) := exists? s p
    if b then (.ok (), { s with made := upd s.made p true, memo := upd s.memo p none })
    else
      match mkdir s.disk p with
      | some d => (.ok (), { disk := d, made := upd s.made p true, memo := upd s.memo p none })
      | none => (.error .os, s)

def buildDirs (ex : Bool) (s : St) : List Path → Except Err Unit × St
  | [] => (.ok (), s)
  | p :: ps =>
    match buildDir ex s p with
    | (.ok _, s) => buildDirs ex s ps
    | (.error e, s) => (.error e, s)

/-- `Dir._create` (FS.py 1903-1931). -/
def create (ex : Bool) (s : St) (p : Path) : Except Err Unit × St :=
  match climb s p with
  | (.ok l, s) => buildDirs ex s l.reverse
  | (.error e, s) => (.error e, s)

/-- `_rmv_existing` (FS.py 3145-3151, 342-350). -/
def rmv (ex : Bool) (s : St) (p : Path) : Except Err Unit × St :=
  let s := { s with memo := upd s.memo p none }
  if !ex then (.ok (), s)
  else
    match s.disk p with
    | some .dir => (.error .os, s)
    | _ => (.ok (), { s with disk := upd s.disk p none })

/-- `File.prepare` (FS.py 3161-3176) with `Node.prepare` (Node/__init__.py 749-758). -/
def filePrepare (G : Graph) (ex : Bool) (s : St) (p : Path) : Except Err Unit × St :=
  match checkAll G .noDepends s (G.depends p) with
  | (.error e, s) => (.error e, s)
  | (.ok _, s) =>
    match checkAll G .noImplicit s (G.implicit p) with
    | (.error e, s) => (.error e, s)
    | (.ok _, s) =>
      if G.upToDate p then (.ok (), s)
      else
        let (b, s) := exists? s p
        if b || isLink s.disk p then
          if G.derived p && !G.precious p then rmv ex s p else (.ok (), s)
        else create ex s p.tail

def prepareAll (G : Graph) (ex : Bool) (s : St) : List Path → Except Err Unit × St
  | [] => (.ok (), s)
  | p :: ps =>
    match filePrepare G ex s p with
    | (.ok _, s) => prepareAll G ex s ps
    | (.error e, s) => (.error e, s)

/-- The targets and sources of a task. -/
structure Task where
  targets : List Path
  sources : List Path

/-- The order in which `Task.prepare` goes through targets and side effects. -/
def Task.nodes (G : Graph) (t : Task) : List Path := t.targets.flatMap fun p => p :: G.sides p

/-- `Task.prepare` (Taskmaster/__init__.py 192-206). -/
def taskPrepare (G : Graph) (ex : Bool) (s : St) (t : Task) : Except Err Unit × St :=
  match checkAll G .noSource s t.sources with
  | (.error e, s) => (.error e, s)
  | (.ok _, s) => prepareAll G ex s (t.nodes G)

end Verif.Prep
