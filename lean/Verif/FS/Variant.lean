import Mathlib.Data.List.Basic
import Mathlib.Data.List.Infix

/-!
# Variant directories and repositories: where a node's files are looked for (C66)

Models `FS.VariantDir` (SCons/Node/FS.py 1503-1517), `FS.Repository` (1519-1524), `Dir.link` (1752-1758), `Dir.addRepository` (1790-1794), `Dir.__clearRepositoryCache` (1709-1725), `Base.is_under` (817-821, 2529-2530),
`Dir.srcdir_list` (2097-2115), `Base.srcnode` (826-836), `Dir.srcnode` (1994-1999), `Dir.getRepositories` (1761-1766), `Dir.get_all_rdirs` (1768-1788), `FS.variant_dir_target_climb` (1546-1570) and the inheritance of
`duplicate` by a new node (648).

A node is its path (C56: one node per path), written innermost name first, so that `up()` is `List.tail` and the file `n` in the directory `d` is `n :: d`; the root is `[]`.
Simplifications: no drive letters; looking a directory up never raises (no file node stands where a directory is wanted).
-/

namespace Verif.FS.Variant

abbrev Path := List String

/-- What the nodes remember.  `known` says which nodes have been made; `dup` is `node.duplicate`; the last two are the entries of `_memo`. -/
structure Conf where
  srcdir : Path → Option Path
  dup : Path → Bool
  repos : Path → List Path
  variants : Path → List Path
  known : Path → Bool
  memoSrc : Path → Option (List Path)
  memoR : Path → Option (List Path)

/-- The first state: only the root (FS.py 2416: `duplicate = False`). -/
def Conf.init : Conf where
  srcdir _ := none
  dup _ := false
  repos _ := []
  variants _ := []
  known p := p = []
  memoSrc _ := none
  memoR _ := none

/-- Looking a path up makes the nodes on the way that are not there yet; a new node takes `duplicate` from its directory (FS.py 648). -/
def touch (C : Conf) : Path → Conf
  | [] => C
  | n :: d =>
    let C1 := touch C d
    if C1.known (n :: d) then C1
    else { C1 with known := fun p => p = n :: d || C1.known p, dup := fun p => if p = n :: d then C1.dup d else C1.dup p }

def touchAll (C : Conf) (ps : List Path) : Conf := ps.foldl touch C

/-- `is_under` (FS.py 817-821 and, at the root, 2529-2530). -/
def isUnder : Path → Path → Bool
  | [], d => d = []
  | n :: p, d => n :: p = d || isUnder p d

/-- `__clearRepositoryCache(duplicate)` (FS.py 1709-1725): every node at or under `v` forgets its `_memo`; `if duplicate: node.duplicate = duplicate`. -/
def clearUnder (C : Conf) (v : Path) (dup : Bool) : Conf :=
  { C with
    memoSrc := fun p => if isUnder p v then none else C.memoSrc p
    memoR := fun p => if isUnder p v then none else C.memoR p
    dup := fun p => if isUnder p v && C.known p && dup then true else C.dup p }

/-- `link` (FS.py 1752-1758). -/
def link (C : Conf) (v s : Path) (dup : Bool) : Conf :=
  let C1 := { C with srcdir := fun p => if p = v then some s else C.srcdir p, dup := fun p => if p = v then dup else C.dup p }
  let C2 := clearUnder C1 v dup
  { C2 with variants := fun p => if p = s then C2.variants s ++ [v] else C2.variants p }

/-- `VariantDir` (FS.py 1503-1517); `none` is a UserError. -/
def variantDir (C : Conf) (v s : Path) (dup : Bool) : Option Conf :=
  let C := touch (touch C s) v
  if isUnder s v then none
  else match C.srcdir v with
    | some s' => if s' = s then some C else none
    | none => some (link C v s dup)

/-- `Top.addRepository(r)` (FS.py 1790-1794). -/
def addRepository (C : Conf) (top r : Path) : Conf :=
  let C := touch C r
  if r ≠ top ∧ r ∉ C.repos top then clearUnder { C with repos := fun p => if p = top then C.repos top ++ [r] else C.repos p } top false else C

/-! ## Source directories -/

/-- The loop of `srcdir_list` (FS.py 2104-2111): `rel` is `dirname`, `rel ++ d` the directory asked about. -/
def srcClimb (sd : Path → Option Path) : Path → Path → List Path
  | rel, [] => match sd [] with | some s => [rel ++ s] | none => []
  | rel, n :: d => (match sd (n :: d) with | some s => [rel ++ s] | none => []) ++ srcClimb sd (rel ++ [n]) d

/-- `srcdir_list()` without the memo. -/
def srcdirList (C : Conf) (d : Path) : List Path := srcClimb C.srcdir [] d

/-- `srcdir_list()` (FS.py 2097-2115); the directories it names are looked up, and so made. -/
def srcdirListM (C : Conf) (d : Path) : Conf × List Path :=
  match C.memoSrc d with
  | some l => (C, l)
  | none =>
    let l := srcdirList C d
    let C := touchAll C l
    ({ C with memoSrc := fun p => if p = d then some l else C.memoSrc p }, l)

/-- `srcnode()` of a file or of an entry (FS.py 826-836). -/
def srcnode (C : Conf) : Path → Path
  | [] => []
  | n :: d => match srcdirList C d with | s :: _ => n :: s | [] => n :: d

/-- `srcnode()` of a directory (FS.py 1994-1999). -/
def srcnodeDir (C : Conf) (p : Path) : Path := match C.srcdir p with | some s => s | none => srcnode C p

/-! ## Repositories -/

/-- The loop of `get_all_rdirs` (FS.py 1775-1784), given `getRepositories`; `none` is an exception. -/
def rClimb (g : Path → Option (List Path)) : Path → Path → Option (List Path)
  | rel, [] => (g []).map fun l => l.map (rel ++ ·)
  | rel, n :: d => do
    let l ← g (n :: d)
    let l' ← rClimb g (rel ++ [n]) d
    some (l.map (rel ++ ·) ++ l')

/-- `get_all_rdirs()` without the memo (FS.py 1768-1788) and `getRepositories()` (1761-1766).  The number bounds the depth of the recursion through source directories; `none` is Python's RecursionError. -/
def allRdirs (C : Conf) : Nat → Path → Option (List Path)
  | 0, _ => none
  | k + 1, d =>
    let getRepositories := fun v => match C.srcdir v, C.dup v with
      | some s, false => (allRdirs C k s).map (· ++ C.repos v)
      | _, _ => some (C.repos v)
    (rClimb getRepositories [] d).map (d :: ·)

/-- `get_all_rdirs()` with the memo. -/
def allRdirsM (C : Conf) (k : Nat) (d : Path) : Option (Conf × List Path) :=
  match C.memoR d with
  | some l => some (C, l)
  | none => do
    let l ← allRdirs C k d
    let C := touchAll C l
    some ({ C with memoR := fun p => if p = d then some l else C.memoR p }, l)

/-! ## Targets in variant directories -/

/-- The loop of `variant_dir_target_climb` (FS.py 1556-1566); `none` stands for `return [orig]`. -/
def climbTargets (vs : Path → List Path) (start : Path) : Path → Path → Option (List Path)
  | tail, [] => if (vs []).any (isUnder start) then none else some ((vs []).map (tail ++ ·))
  | tail, n :: d =>
    if (vs (n :: d)).any (isUnder start) then none
    else (climbTargets vs start (tail ++ [n]) d).map ((vs (n :: d)).map (tail ++ ·) ++ ·)

/-- `alter_targets()` of a source file `n :: d` (FS.py 3138-3143). -/
def alterFile (C : Conf) (n : String) (d : Path) : List Path := (climbTargets C.variants d [n] d).getD [n :: d]

/-- `alter_targets()` of a directory (FS.py 1939-1942). -/
def alterDir (C : Conf) (d : Path) : List Path := (climbTargets C.variants d [] d).getD [d]

/-! ## Histories -/

/-- What a SConscript can do to all this. -/
inductive Op where
  | lookup (p : Path)
  | variantDir (v s : Path) (dup : Bool)
  | repository (r : Path)
  | srcdirs (d : Path)
  | rdirs (d : Path) (k : Nat)

/-- One call; `none` when it raises. -/
def step (top : Path) (C : Conf) : Op → Option Conf
  | .lookup p => some (touch C p)
  | .variantDir v s dup => variantDir C v s dup
  | .repository r => some (addRepository C top r)
  | .srcdirs d => some (srcdirListM C d).1
  | .rdirs d k => (allRdirsM C k d).map (·.1)

def run (top : Path) (C : Conf) (ops : List Op) : Option Conf := ops.foldlM (step top) C

end Verif.FS.Variant
