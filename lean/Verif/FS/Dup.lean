import Verif.FS.VariantProps

/-!
# Finding a file, and copying it into the variant directory (C66, C67)

Models `exists_file` (SCons/Node/__init__.py 148-171), `exists_base` (137), `File.do_duplicate` (SCons/Node/FS.py 3189-3207), `Unlink` (345-353), `LinkFunc` and the three ways of linking (250-275, 304-340), `Dir.srcdir_duplicate` (2117-2132),
`Dir.file_on_disk` (2186-2193), `File.rfile` (3588-3620) and `-n` (SCons/Action.py 758: an action object does nothing then).

Simplifications: directories are not symbolic links, and a link's target is written without `.` and `..`; a directory is on disk when the model says so, and making missing directories (`_createDir`, `os.makedirs`) always works and is not
recorded; `on_disk_entries` (the listing of a directory, kept for the whole run) is the listing at the time of the question; the `_memo` of `exists` and `rfile` is not modelled (every question is asked again); an `Entry` counts as what
`disambiguate()` turns it into, a file unless it is a directory; `must_be_same` does not raise.
-/

namespace Verif.FS.Variant

/-- What a path may be on disk: a regular file (by inode number), a directory, a symbolic link (absolute, or relative to where the link is). -/
inductive Obj where
  | file (ino : Nat)
  | dir
  | link (abs : Bool) (t : Path)
deriving DecidableEq

structure Disk where
  obj : Path → Option Obj
  data : Nat → String
  /-- No inode has this number or a greater one. -/
  next : Nat
  /-- The process's current directory. -/
  cwd : Path

/-- Where a path leads, symbolic links followed; the number is the kernel's limit on them (ELOOP). -/
def follow (D : Disk) : Nat → Path → Option Path
  | 0, _ => none
  | k + 1, p =>
    match D.obj p with
    | none => none
    | some (.link true t) => follow D k t
    | some (.link false t) => follow D k (t ++ p.tail)
    | some _ => some p

/-- Linux follows at most forty links. -/
def eloop : Nat := 41

/-- `os.stat(p)`: what is there, links followed. -/
def stat (D : Disk) (p : Path) : Option Obj := (follow D eloop p).bind D.obj

/-- The contents of a regular file. -/
def read (D : Disk) (p : Path) : Option String := match stat D p with | some (.file i) => some (D.data i) | _ => none

def Disk.put (D : Disk) (p : Path) (o : Option Obj) : Disk := { D with obj := fun q => if q = p then o else D.obj q }

/-- Which system calls fail for reasons outside the model (permissions, devices). -/
structure Faults where
  hard : Path → Path → Bool
  soft : Path → Path → Bool
  copy : Path → Path → Bool

inductive LinkHow where
  | hard | soft | copy
deriving DecidableEq

/-- The loop of `_hardlink_func` (FS.py 255-260): the branches are as in the code.  The number bounds the loop; `none` when it does not end. -/
def disambig (D : Disk) : Nat → Path → Option Path
  | 0, _ => none
  | k + 1, src =>
    match D.obj src with
    | some (.link false t) => disambig D k (t ++ D.cwd)
    | some (.link true t) => disambig D k t
    | _ => some src

/-- `_hardlink_func` (FS.py 250-261): `none` hang, `some none` OSError. -/
def hardlink (D : Disk) (F : Faults) (k : Nat) (src dst : Path) : Option (Option Disk) :=
  match disambig D k src with
  | none => none
  | some s =>
    match D.obj s with
    | some (.file i) => if D.obj dst ≠ none ∨ F.hard src dst then some none else some (some (D.put dst (some (.file i))))
    | _ => some none

/-- `_softlink_func` (FS.py 265-267). -/
def softlink (D : Disk) (F : Faults) (src dst : Path) : Option Disk :=
  if D.obj dst ≠ none ∨ F.soft src dst then none else some (D.put dst (some (.link true src)))

/-- `_copy_func` (FS.py 271-274): a new file with the source's contents. -/
def copyfile (D : Disk) (F : Faults) (src dst : Path) : Option Disk :=
  match read D src with
  | none => none
  | some c => if F.copy src dst then none else some { D.put dst (some (.file D.next)) with data := fun i => if i = D.next then c else D.data i, next := D.next + 1 }

/-- The loop of `LinkFunc` (FS.py 323-337). -/
def linkFunc (D : Disk) (F : Faults) (k : Nat) (src dst : Path) : List LinkHow → Option (Option Disk)
  | [] => some (some D)
  | f :: fs =>
    let r := match f with
      | .hard => hardlink D F k src dst
      | .soft => some (softlink D F src dst)
      | .copy => some (copyfile D F src dst)
    match r with
    | none => none
    | some (some D') => some (some D')
    | some none => if fs = [] then some none else linkFunc D F k src dst fs

/-! ## The nodes -/

structure S where
  conf : Conf
  disk : Disk
  /-- The known nodes that are directories. -/
  isDir : Path → Bool
  /-- The targets. -/
  derived : Path → Bool
  linked : Path → Bool

structure Setup where
  noExec : Bool
  funcs : List LinkHow
  faults : Faults

/-- `do_duplicate(src)` (FS.py 3189-3207) on the file `p`; `none` when it raises or hangs.  `Unlink` and `Link` are action objects: with `-n` they do nothing. -/
def doDuplicate (U : Setup) (k : Nat) (X : S) (p src : Path) : Option S :=
  if U.noExec then some { X with linked := fun q => q = p || X.linked q }
  else
    match linkFunc (X.disk.put p none) U.faults k src p U.funcs with
    | some (some D) => some { X with disk := D, linked := fun q => q = p || X.linked q }
    | _ => none

/-- Looking up the path `p`, as a directory or as a file: new nodes above it are directories. -/
def S.look (X : S) (p : Path) (dir : Bool) : S :=
  { X with conf := touch X.conf p, isDir := fun q => if X.conf.known q then X.isDir q else if q = p then dir else isUnder p q || X.isDir q }

/-- `do_duplicate` of a node of either kind: a directory's does nothing (FS.py 1967). -/
def duplicateNode (U : Setup) (k : Nat) (X : S) (p src : Path) : Option S := if X.isDir p then some X else doDuplicate U k X p src

/-- `srcdir_duplicate(name)` (FS.py 2117-2132), over the directories of `srcdir_list()`. -/
def srcdirDuplicate (U : Setup) (k : Nat) (X : S) (d : Path) (n : String) : List Path → Option (S × Option Path)
  | [] => some (X, none)
  | s :: ss =>
    if isUnder d s then some (X, none)
    else if X.disk.obj (n :: s) ≠ none then
      let srcIsDir := decide (stat X.disk (n :: s) = some .dir)
      let X1 := X.look (n :: s) srcIsDir
      if X1.conf.dup d then (duplicateNode U k (X1.look (n :: d) srcIsDir) (n :: d) (n :: s)).map fun X => (X, some (n :: d))
      else some (X1, some (n :: s))
    else srcdirDuplicate U k X d n ss

/-- `file_on_disk(name)` (FS.py 2186-2193), for a name the directory has no node of. -/
def fileOnDisk (U : Setup) (k : Nat) (X : S) (d : Path) (n : String) : Option (S × Option Path) :=
  if X.disk.obj (n :: d) ≠ none ∧ stat X.disk (n :: d) ≠ some .dir then some (X.look (n :: d) false, some (n :: d))
  else
    match srcdirDuplicate U k X d n (srcdirList X.conf d) with
    | none => none
    | some (X, some q) => if X.isDir q then some (X, none) else some (X, some q)
    | some (X, none) => some (X, none)

/-- `dir.entries[name]`, else `dir.file_on_disk(name)` (FS.py 3597-3600). -/
def candidate (U : Setup) (k : Nat) (X : S) (r : Path) (n : String) : Option (S × Option Path) :=
  if X.conf.known (n :: r) then some (X, some (n :: r)) else fileOnDisk U k X r n

/-- The loop of `rfile` (FS.py 3596-3618), given `exists`. -/
def rfileLoop (U : Setup) (k : Nat) (ex : S → Path → Option (S × Bool)) (n : String) : S → List Path → Option (S × Option Path)
  | X, [] => some (X, none)
  | X, r :: rs =>
    match candidate U k X r n with
    | none => none
    | some (X1, none) => rfileLoop U k ex n X1 rs
    | some (X1, some q) =>
      match ex X1 q with
      | none => none
      | some (X2, e) => if e && (!X2.isDir q || !X2.derived q) then some (X2, some q) else rfileLoop U k ex n X2 rs

/-- `exists()` of the node `p` and `rfile()` of the file `p`.  The number bounds the depth of the recursion. -/
def query (U : Setup) : Nat → (S → Path → Option (S × Bool)) × (S → Path → Option (S × Path))
  | 0 => (fun _ _ => none, fun _ _ => none)
  | k + 1 =>
    let ex := (query U k).1
    let rf := (query U k).2
    (fun X p =>
      if X.isDir p then some (X, (stat X.disk p).isSome)
      else if X.conf.dup p && !X.derived p && !X.linked p then
        let src := srcnode X.conf p
        if src = p then some (X, (stat X.disk p).isSome)
        else
          let X := X.look src false
          match rf X src with
          | none => none
          | some (X, r) =>
            if r = p then some (X, (stat X.disk p).isSome)
            else
              match ex X r with
              | none => none
              | some (X, true) => (doDuplicate U k X p r).map fun X => (X, (stat X.disk p).isSome)
              | some (X, false) => some ({ X with disk := X.disk.put p none }, false)
      else some (X, (stat X.disk p).isSome),
     fun X p =>
      match ex X p with
      | none => none
      | some (X, true) => some (X, p)
      | some (X, false) =>
        match p with
        | [] => some (X, p)
        | n :: d =>
          match allRdirs X.conf k d with
          | none => none
          | some rs =>
            match rfileLoop U k ex n (rs.foldl (fun X r => X.look r true) X) rs with
            | none => none
            | some (X, some q) => some (X, q)
            | some (X, none) => some (X, p))

/-- `node.exists()`. -/
def exists' (U : Setup) (k : Nat) (X : S) (p : Path) : Option (S × Bool) := (query U k).1 X p

/-- `node.rfile()`. -/
def rfile (U : Setup) (k : Nat) (X : S) (p : Path) : Option (S × Path) := (query U k).2 X p

end Verif.FS.Variant
