import Mathlib.Data.List.Sort
import Mathlib.Data.List.Dedup

/-!
# Glob (C69)

Models `Dir.glob` (SCons/Node/FS.py 2224-2284), `Dir._glob1` (2289-2351), `Base._glob1` (990-991), `Entry._glob1` (1146-1147), `Entry.disambiguate` (1036-1077) and `FS.Glob` (1573-1581).

Paths are lists of names, innermost first.  Simplifications: the pathname comes split at its slashes: the part in front of the first component that has a wildcard is looked up as a directory and is known already; `fnmatch.fnmatch` is a
parameter, and so is `str` of a node (`key`); the directories to search, those of `get_all_rdirs` and `srcdir_list` (see C66), are given by `search`; the file system is case-sensitive; the disk does not change during the call.
-/

namespace Verif.FS.Glob

abbrev Path := List String

inductive Kind where
  | file
  | dir
  | entry
deriving DecidableEq

structure World where
  top : Path
  /-- `get_all_rdirs()` and those of the source directories (FS.py 2301-2304). -/
  search : Path → List Path
  /-- `os.listdir`. -/
  list : Path → Option (List String)
  /-- `isfile()` and `isdir()`. -/
  disk : Path → Option Kind
  /-- Nothing there, but a directory at the place of the source node (FS.py 1063-1070). -/
  srcDir : Path → Bool
  fm : String → String → Bool
  /-- The order in which a set of names is iterated over. -/
  order : List String → List String
  /-- `str` of the result with this path, as a string or as a node. -/
  key : Bool → Path → String

/-- The nodes: the names of a directory's entries, and the nodes' classes. -/
structure Nodes where
  names : Path → List String
  kind : Path → Kind

/-- `Entry(name)` in the directory `d`: found or made. -/
def Nodes.entry (S : Nodes) (d : Path) (n : String) : Nodes :=
  if n ∈ S.names d then S
  else { names := fun q => if q = d then S.names d ++ [n] else S.names q, kind := fun q => if q = n :: d then .entry else S.kind q }

def hashed (n : String) : Bool := n.toList.head? = some '#'

/-- `selfEntry(name)` for the name of a node (FS.py 2318): a `#` at the beginning means the top directory. -/
def Nodes.selfEntry (W : World) (d : Path) (S : Nodes) (n : String) : Nodes :=
  if hashed n then (if n = "#" then S else S.entry W.top (String.ofList n.toList.tail)) else S.entry d n

/-- The class an `Entry` gets (FS.py 1046-1076). -/
def World.classOf (W : World) (p : Path) : Kind := match W.disk p with | some .file => .file | some .dir => .dir | _ => if W.srcDir p then .dir else .file

def Nodes.setKind (S : Nodes) (p : Path) (k : Kind) : Nodes := { S with kind := fun q => if q = p then k else S.kind q }

/-- `disambiguate()`. -/
def Nodes.disamb (W : World) (S : Nodes) (p : Path) : Nodes := if S.kind p = .entry then S.setKind p (W.classOf p) else S

/-- The leading dot (FS.py 2335-2336, 2348-2349). -/
def visible (pat n : String) : Bool := pat.toList.head? = some '.' || n.toList.head? ≠ some '.'

def World.hits (W : World) (pat n : String) : Bool := visible pat n && W.fm n pat

/-- One name found on disk in `r` (FS.py 2339-2346). -/
def Nodes.found (W : World) (d r : Path) (S : Nodes) (n : String) : Nodes :=
  let S1 := (S.entry r n).disamb W (n :: r)
  let S2 := S1.entry d n
  S2.setKind (n :: d) (S1.kind (n :: r))

/-- One directory of the search (FS.py 2308-2346). -/
def visit (W : World) (d : Path) (pat : String) (ondisk strings : Bool) (X : Nodes × List String) (r : Path) : Nodes × List String :=
  let nn := X.1.names r
  let S := if strings then X.1 else nn.foldl (Nodes.selfEntry W d) X.1
  match ondisk, W.list r with
  | true, some dn => (if strings then S else (dn.filter (W.hits pat)).foldl (Nodes.found W d r) S, X.2 ++ nn ++ dn)
  | _, _ => (S, X.2 ++ nn)

/-- `_glob1` of a directory; `none` when it raises: an empty pattern, or a name that has no node. -/
def glob1 (W : World) (ondisk _source strings : Bool) (S : Nodes) (d : Path) (pat : String) : Option (Nodes × List Path) :=
  if pat = "" then none
  else
    let X := (W.search d).foldl (visit W d pat ondisk strings) (S, [])
    let ns := (W.order X.2).filter (W.hits pat)
    if strings || ns.all (fun n => n ∈ X.1.names d) then some (X.1, ns.map (· :: d)) else none

/-- `_glob1` of the nodes a pattern with wildcards has given, by class, one after the other (FS.py 2272-2276). -/
def globAll (W : World) (ondisk source strings : Bool) (pat : String) : Nodes → List Path → Option (Nodes × List Path)
  | S, [] => some (S, [])
  | S, p :: ps =>
    let S1 := S.disamb W p
    if S1.kind p = .dir then
      match glob1 W ondisk source strings S1 p pat with
      | none => none
      | some (S2, l) => match globAll W ondisk source strings pat S2 ps with
        | none => none
        | some (S3, l') => some (S3, l ++ l')
    else globAll W ondisk source strings pat S1 ps

/-- `sorted(result, key=str)`, which is stable. -/
def World.sorted (W : World) (strings : Bool) (l : List Path) : List Path := l.insertionSort fun a b => W.key strings a ≤ W.key strings b

/-- `glob` of the pattern with the components `pats`, innermost first, under `base`; `fin` is what is done about `exclude` (FS.py 2264-2284). -/
def globWith (W : World) (ondisk source : Bool) (fin : Bool → Nodes → List Path → Option (Nodes × List Path)) (base : Path) : List String → Bool → Nodes → Option (Nodes × List Path)
  | [], _, _ => none
  | [b], strings, S =>
    match glob1 W ondisk source strings S base b with
    | none => none
    | some (S1, l) => match fin strings S1 l with | none => none | some (S2, l) => some (S2, W.sorted strings l)
  | b :: c :: cs, strings, S =>
    match globWith W ondisk source fin base (c :: cs) false S with
    | none => none
    | some (S1, dirs) => match globAll W ondisk source strings b S1 dirs with
      | none => none
      | some (S2, l) => match fin strings S2 l with | none => none | some (S3, l) => some (S3, W.sorted strings l)

/-- Without `exclude`. -/
def globPlain (W : World) (ondisk source : Bool) (base : Path) (pats : List String) (strings : Bool) (S : Nodes) : Option (Nodes × List Path) := globWith W ondisk source (fun _ S l => some (S, l)) base pats strings S

/-- A pattern: where it starts and its components, innermost first. -/
abbrev Pat := Path × List String

/-- The globs of `exclude` (FS.py 2278-2282). -/
def globExcl (W : World) (ondisk source strings : Bool) : Nodes → List Pat → Option (Nodes × List Path)
  | S, [] => some (S, [])
  | S, x :: xs => match globPlain W ondisk source x.1 x.2 strings S with
    | none => none
    | some (S1, l) => match globExcl W ondisk source strings S1 xs with
      | none => none
      | some (S2, l') => some (S2, l ++ l')

/-- `if exclude:` (FS.py 2277-2283). -/
def exclude (W : World) (ondisk source : Bool) (xs : List Pat) (strings : Bool) (S : Nodes) (l : List Path) : Option (Nodes × List Path) :=
  if xs = [] then some (S, l)
  else match globExcl W ondisk source strings S xs with
    | none => none
    | some (S1, es) => some (S1, l.filter fun x => !es.any fun e => W.fm (W.key strings x) (W.key strings e))

/-- `Glob(pattern, ondisk, source, strings, exclude)`. -/
def glob (W : World) (ondisk source strings : Bool) (S : Nodes) (pat : Pat) (xs : List Pat) : Option (Nodes × List Path) := globWith W ondisk source (exclude W ondisk source xs) pat.1 pat.2 strings S

end Verif.FS.Glob
