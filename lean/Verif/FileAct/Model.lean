/-!
# The file actions: `Delete`, `Mkdir`, `Touch`, `Copy`, `Move`

`SCons/Defaults.py` 259–394, with the parts of Python's `os` and `shutil` that they call, on a file system with links and
directories that may not be written to.

Simplifications: a path is a list of names from the root, and the directories on the way to it are not links (a thing below a link
is not there in the model; the theorems ask for directories where something is made); what a link says is such a path (`os.readlink` and `os.path.realpath` agree with that for absolute links);
permissions are: a set of directories in which nothing may be made, renamed or removed; files can be read and overwritten;
of the metadata there is the time of modification only, and only for files; there is one device.
-/

namespace Verif.FileAct

abbrev Path := List String

inductive Obj where
  | file (content : Nat) (mtime : Nat)
  | dir
  | link (to : Path)
deriving DecidableEq, Repr

structure FS where
  objs : List (Path × Obj)
  /-- directories without write permission -/
  prot : List Path
deriving DecidableEq, Repr

inductive Err where
  | notFound
  | exists
  | isDir
  | notDir
  | denied
  | sameFile
  /-- `shutil.Error` -/
  | shutil
  /-- `SCons.Errors.BuildError`, Defaults.py 284–290, 300–305 -/
  | build
deriving DecidableEq, Repr

/-- What an action leaves behind, and the exception if there is one. -/
abbrev Out := FS × Option Err

def FS.get (fs : FS) (p : Path) : Option Obj := (fs.objs.find? fun x => decide (x.1 = p)).map Prod.snd

/-- The file system with something else at a path. -/
def FS.put (fs : FS) (p : Path) (o : Obj) : FS := { fs with objs := (p, o) :: fs.objs.filter fun x => decide (x.1 ≠ p) }

/-- The file system without what is at a path. -/
def FS.drop (fs : FS) (p : Path) : FS := { fs with objs := fs.objs.filter fun x => decide (x.1 ≠ p) }

/-- Where a path leads when links are followed; the system gives up after forty. -/
def FS.follow (fs : FS) : Nat → Path → Path
  | 0, p => p
  | n + 1, p => match fs.get p with
    | some (.link t) => fs.follow n t
    | _ => p

/-- `os.stat` -/
def FS.stat (fs : FS) (p : Path) : Option Obj :=
  match fs.get (fs.follow 40 p) with
  | some (.link _) => none
  | o => o

/-- `os.path.exists` -/
def FS.exists? (fs : FS) (p : Path) : Bool := (fs.stat p).isSome

/-- `os.path.isdir` -/
def FS.isDir (fs : FS) (p : Path) : Bool := decide (fs.stat p = some .dir)

/-- `os.path.isfile` -/
def FS.isFile (fs : FS) (p : Path) : Bool := match fs.stat p with
  | some (.file _ _) => true
  | _ => false

/-- `os.path.islink` -/
def FS.isLink (fs : FS) (p : Path) : Bool := match fs.get p with
  | some (.link _) => true
  | _ => false

/-- May something be made or removed at this path? -/
def FS.may (fs : FS) (p : Path) : Bool := decide (p.dropLast ∉ fs.prot)

/-- `os.unlink` -/
def FS.unlink (fs : FS) (p : Path) : Out :=
  match fs.get p with
  | none => (fs, some .notFound)
  | some .dir => (fs, some .isDir)
  | some _ => if fs.may p then (fs.drop p, none) else (fs, some .denied)

/-- `shutil.rmtree(p, True)`: what cannot be removed stays, with the directories on the way to it; no errors. -/
def FS.rmtree (fs : FS) (p : Path) : FS :=
  { fs with objs := fs.objs.filter fun x => decide ¬ (p <+: x.1 ∧ fs.objs.all fun y => decide (x.1 <+: y.1 → fs.may y.1)) }

/-- `os.mkdir` -/
def FS.mkdir (fs : FS) (p : Path) : Out :=
  match fs.get p with
  | some _ => (fs, some .exists)
  | none => match fs.get p.dropLast with
    | none => (fs, some .notFound)
    | some .dir => if fs.may p then (fs.put p .dir, none) else (fs, some .denied)
    | some _ => (fs, some .notDir)

/-- `os.makedirs(p, exist_ok=True)`; the path given from its end. -/
def FS.makedirsRev (fs : FS) : List String → Out
  | [] => (fs, if fs.isDir [] then none else some .notFound)
  | x :: r =>
    let up : Out := if fs.exists? r.reverse then (fs, none) else fs.makedirsRev r
    match up.2 with
    | some .exists | none =>
      let m := up.1.mkdir (x :: r).reverse
      match m.2 with
      | none => m
      | some e => (m.1, if m.1.isDir (x :: r).reverse then none else some e)
    | some e => (up.1, some e)

def FS.makedirs (fs : FS) (p : Path) : Out := fs.makedirsRev p.reverse

/-- Opening a file for writing, writing it and setting its time: `open(p, 'w')`, `os.utime`. -/
def FS.write (fs : FS) (p : Path) (c m : Nat) : Out :=
  let t := fs.follow 40 p
  match fs.get t with
  | some (.file _ _) => (fs.put t (.file c m), none)
  | some .dir => (fs, some .isDir)
  | some (.link _) => (fs, some .notFound)
  | none => match fs.get t.dropLast with
    | some .dir => if fs.may t then (fs.put t (.file c m), none) else (fs, some .denied)
    | some _ => (fs, some .notDir)
    | none => (fs, some .notFound)

/-- A loop over the arguments, which ends with the first exception. -/
def each (f : FS → Path → Out) : FS → List Path → Out
  | fs, [] => (fs, none)
  | fs, p :: l => match f fs p with
    | (fs', none) => each f fs' l
    | r => r

/-- One round of `delete_func`, 336–346. -/
def delete1 (mustExist : Bool) (fs : FS) (p : Path) : Out :=
  let there := fs.exists? p || fs.isLink p
  if !there && !mustExist then (fs, none)
  else if fs.isDir p && !fs.isLink p then (fs.rmtree p, none)
  else fs.unlink p

/-- `delete_func`, 327–346. -/
def delete (mustExist : Bool) (fs : FS) (dest : List Path) : Out := each (delete1 mustExist) fs dest

/-- `mkdir_func`, 357–363. -/
def mkdirs (fs : FS) (dest : List Path) : Out := each FS.makedirs fs dest

/-- Nanoseconds in a second. -/
def second : Nat := 1000000000

/-- One round of `touch_func`, 386–394, at the time `now` in nanoseconds; `int(time.time())`. An empty file has contents 0. -/
def touch1 (now : Nat) (fs : FS) (p : Path) : Out :=
  let mtime := now / second * second
  if fs.exists? p then
    match fs.stat p with
    | some (.file c _) => fs.write p c mtime
    | _ => (fs, none)
  else fs.write p 0 mtime

/-- `touch_func`, 381–394. -/
def touch (now : Nat) (fs : FS) (dest : List Path) : Out := each (touch1 now) fs dest

/-- `os.path.basename` -/
def base (p : Path) : Path := p.drop (p.length - 1)

/-- `shutil.copy2` -/
def FS.copy2 (fs : FS) (src dest : Path) : Out :=
  let d := if fs.isDir dest then dest ++ base src else dest
  match fs.stat src with
  | none => (fs, some .notFound)
  | some (.file c m) =>
    if fs.follow 40 src = fs.follow 40 d then (fs, some .sameFile)
    else fs.write d c m
  | some _ => (fs, some .isDir)

/-- What becomes of one thing in a tree that is copied with `shutil.copytree(…, symlinks)`: for links that do not lead to
directories. -/
def FS.shown (fs : FS) (symlinks : Bool) : Obj → Option Obj
  | .link t => if symlinks then some (.link t) else match fs.stat t with
    | some (.file c m) => some (.file c m)
    | _ => none
  | o => some o

/-- What `shutil.copytree(src, dest, symlinks)` copies, for a `dest` that is not below `src`. -/
def FS.treeOf (fs : FS) (src : Path) (symlinks : Bool) : List (Path × Obj) :=
  fs.objs.filterMap fun x => if src <+: x.1 then (fs.shown symlinks x.2).map fun o => (x.1.drop src.length, o) else none

/-- Does `copytree` meet a link that leads nowhere? It goes on, and raises an exception at the end. -/
def FS.dangling (fs : FS) (src : Path) (symlinks : Bool) : Bool :=
  !symlinks && fs.objs.any fun x => decide (src <+: x.1) && (match x.2 with
    | .link t => !fs.isFile t
    | _ => false)

/-- `shutil.copytree` -/
def FS.copytree (fs : FS) (src dest : Path) (symlinks : Bool) : Out :=
  match fs.stat src with
  | none => (fs, some .notFound)
  | some .dir =>
    if fs.get dest ≠ none then (fs, some .exists)
    else match fs.makedirs dest with
      | (fs', none) => ((fs.treeOf src symlinks).foldr (fun x f => f.put (dest ++ x.1) x.2) fs',
          if fs.dangling src symlinks then some .shutil else none)
      | r => r
  | some _ => (fs, some .notDir)

/-- `os.symlink` -/
def FS.symlink (fs : FS) (t dest : Path) : Out :=
  match fs.get dest with
  | some _ => (fs, some .exists)
  | none => match fs.get dest.dropLast with
    | some .dir => if fs.may dest then (fs.put dest (.link t), none) else (fs, some .denied)
    | some _ => (fs, some .notDir)
    | none => (fs, some .notFound)

/-- `copy_func` for one source, 295–316. -/
def copy1 (fs : FS) (dest src : Path) (symlinks : Bool) : Out :=
  match fs.get src with
  | some (.link t) =>
    if symlinks then
      match fs.symlink t dest with
      | (fs', some .exists) => (fs', some .build)
      | r => r
    else
      -- 308: `copy_func(dest, os.path.realpath(src))`: not a link, unless there is a loop
      let real := fs.follow 40 src
      if fs.isFile real then fs.copy2 real dest else fs.copytree real dest true
  | _ => if fs.isFile src then fs.copy2 src dest else fs.copytree src dest symlinks

/-- `copy_func` with a list of sources, 279–293. -/
def copyList (fs : FS) (dest : Path) (srcs : List Path) : Out :=
  match fs.makedirs dest with
  | (fs', none) => each (fun f s => f.copy2 s dest) fs' srcs
  | (fs', some .exists) => (fs', some .build)
  | r => r

/-- The tree at `src` under the name `dest`. -/
def FS.mv (fs : FS) (src dest : Path) : FS :=
  { fs with objs := fs.objs.map fun x => if src <+: x.1 then (dest ++ x.1.drop src.length, x.2) else x }

/-- `os.rename(src, dest)`: the whole tree. -/
def FS.rename (fs : FS) (src dest : Path) : Out :=
  match fs.get src with
  | none => (fs, some .notFound)
  | some o =>
    if src = dest then (fs, none)
    else if src <+: dest then (fs, some .denied)
    else if fs.get dest.dropLast ≠ some .dir then (fs, some .notFound)
    else if !fs.may src || !fs.may dest then (fs, some .denied)
    else match fs.get dest with
      | some .dir => if o = .dir ∧ (fs.objs.all fun x => decide (dest <+: x.1 → x.1 = dest)) then
            ((fs.drop dest).mv src dest, none)
          else (fs, some .exists)
      | some _ => if o = .dir then (fs, some .notDir) else ((fs.drop dest).mv src dest, none)
      | none => (fs.mv src dest, none)

/-- `os.rename` and, if it raises, what `shutil.move` does instead. `shutil.rmtree` without `ignore_errors` raises at the first
thing it cannot remove; what it has removed by then is taken to be all that can be removed. -/
def FS.moveTo (fs : FS) (src real : Path) : Out :=
  match fs.rename src real with
  | (fs', none) => (fs', none)
  | (_, some _) =>
    match fs.get src with
    | some (.link t) =>
      match fs.symlink t real with
      | (fs', none) => fs'.unlink src
      | r => r
    | some .dir =>
      if src <+: real then (fs, some .shutil)
      else match fs.copytree src real true with
        | (fs', none) => (fs'.rmtree src, if (fs'.rmtree src).get src = none then none else some .denied)
        | r => r
    | _ =>
      match fs.copy2 src real with
      | (fs', none) => fs'.unlink src
      | r => r

/-- `move_func`, 369–373: `shutil.move(src, dest)`. -/
def move (fs : FS) (dest src : Path) : Out :=
  if fs.isDir dest then
    if fs.follow 40 src = fs.follow 40 dest ∧ fs.isLink src = false then fs.rename src dest
    else
      let real := dest ++ base src
      if fs.exists? real then (fs, some .shutil) else fs.moveTo src real
  else fs.moveTo src dest

/-! ## `Execute` -/

/-- What the nodes remember of the file system: the result of `os.stat` (`Base.stat`, Node/FS.py 750–761). -/
abbrev Memo := Path → Option (Option Obj)

/-- `invalidate_node_memos`, Node/FS.py 3836–3874. -/
def forget (m : Memo) (l : List Path) : Memo := fun p => if p ∈ l then none else m p

end Verif.FileAct
