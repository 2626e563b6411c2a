import Verif.Scan.Props
import Mathlib.Data.List.Sort

/-!
# Directories as sources (C72)

Models `SCons/Scanner/Dir.py` (27-125: `only_dirs`, `DirScanner`, `DirEntryScanner`, `skip_entry_list`, `scan_on_disk`,
`scan_in_memory`), `Dir.get_found_includes` and `Dir.get_env_scanner` (SCons/Node/FS.py 1857-1884), and of `Node.changed`
(SCons/Node/__init__.py 1471-1532) with `changed_since_last_build_state_changed` (281-282) what concerns a target whose only
source is a directory.  The recursive scan is that of `Verif.Scan.Model`.

Paths are lists of names, innermost first.  Simplifications: no variant directories, repositories or links among the
directories; the disk does not change during a scan; names are case-sensitive.
-/

namespace Verif.Scan.Dirs

abbrev Name := String
abbrev Path := List Name

/-- What SCons looks at. `isDir`: the node of the path is a `Dir` after `disambiguate()`. `listing`: what `os.listdir` returns, in its
order; `none`: it raises. `known`: the names of the nodes that the directory's node has (`Dir.entries`), in the order they were
made. `csig`: the content signature of a file. `stale`: the state of the directory is not `up_to_date`. -/
structure World (Sig : Type) where
  isDir : Path → Bool
  listing : Path → Option (List Name)
  known : Path → List Name
  csig : Path → Sig
  stale : Path → Bool

variable {Sig : Type} [DecidableEq Sig]

/-- `skip_entry_list` (Scanner/Dir.py 44-83). -/
def skipped : List Name :=
  [".", "..", ".sconsign", ".sconsign.dblite", ".sconsign.dir", ".sconsign.pag", ".sconsign.dat", ".sconsign.bak",
   ".sconsign.db", ".sconsign_md5.dblite", ".sconsign_sha1.dblite", ".sconsign_sha256.dblite",
   ".sconsign_md5", ".sconsign_md5.dir", ".sconsign_md5.pag", ".sconsign_md5.dat", ".sconsign_md5.bak", ".sconsign_md5.db",
   ".sconsign_sha1", ".sconsign_sha1.dir", ".sconsign_sha1.pag", ".sconsign_sha1.dat", ".sconsign_sha1.bak", ".sconsign_sha1.db",
   ".sconsign_sha256", ".sconsign_sha256.dir", ".sconsign_sha256.pag", ".sconsign_sha256.dat", ".sconsign_sha256.bak",
   ".sconsign_sha256.db"]

/-- `do_not_scan` (Scanner/Dir.py 89; it says whether to go on with a name). -/
def doScan (n : Name) : Bool := decide (n ∉ skipped)

/-- `scan_in_memory` (Scanner/Dir.py 111-125): the names. -/
def scanInMemory (keys : List Name) : List Name := (keys.filter doScan).insertionSort (· ≤ ·)

/-- `e('./' + f)`: a node is made unless there is one. -/
def lookup (keys : List Name) (f : Name) : List Name := if f ∈ keys then keys else keys ++ [f]

/-- `scan_on_disk` (Scanner/Dir.py 91-109). -/
def scanOnDisk (keys : List Name) (listing : Option (List Name)) : List Name :=
  match listing with
  | none => []
  | some l => scanInMemory ((l.filter doScan).foldl lookup keys)

/-- The two scanners. -/
inductive Scanner | disk | memory
  deriving DecidableEq

/-- The scanners as the recursive scan sees them.  `DirEntryScanner` is what a directory uses without a scanner given by the builder.
The nodes `scan_on_disk` makes are those of the directory scanned, which is scanned once. -/
def env (w : World Sig) : Env Path Scanner where
  sel s _ := some s
  envSc p := if w.isDir p then some .memory else none
  found p s :=
    match s with
    | .disk => (scanOnDisk (w.known p) (w.listing p)).map (· :: p)
    | .memory => (scanInMemory (w.known p)).map (· :: p)
  recurse s l :=
    match s with
    | .disk => l.filter w.isDir
    | .memory => []

/-- The implicit dependencies of a target with the source `d`. -/
def deps (w : World Sig) (s : Option Scanner) (d : Path) (n : Nat) : Option (List Path) := getImplicitDeps (env w) s d n

/-- The signatures recorded when the target has been built: for a directory there is none (`DirNodeInfo`). -/
def record (w : World Sig) (kids : List Path) : List (Option Sig) :=
  kids.map fun p => if w.isDir p then none else some (w.csig p)

/-- The decider of a child: of a directory its state (Node/__init__.py 281-282), of a file its content
(`File.changed_content`). -/
def childChanged (w : World Sig) (p : Path) (prev : Option Sig) : Bool :=
  if w.isDir p then w.stale p else decide (prev ≠ some (w.csig p))

/-- `Node.changed` (Node/__init__.py 1501-1522): the lists are compared entry by entry. -/
def changed (w : World Sig) (kids : List Path) (then_ : List (Option Sig)) : Bool :=
  decide (kids.length ≠ then_.length) || (kids.zip then_).any fun c => childChanged w c.1 c.2

end Verif.Scan.Dirs
