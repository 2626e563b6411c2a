import Verif.FS.Lookup

/-!
# The pieces of a path: `${TARGET.base}`, `${SOURCE.dir}` and the others (C111)

Models `Util.splitext` and `rightmost_separator` (SCons/Util/__init__.py 136-138, 159-170), the special attributes of file nodes (`EntryProxy`, SCons/Node/FS.py 480-585, `SpecialAttrWrapper`, SCons/Subst.py 100-131),
what they are computed from (`Base.get_path` 838-856, `get_abspath` 876-878 and 2009-2011, `get_relpath` 884-886, `_get_str` 722-748, `srcnode` 826-836 and 1994-1999, `srcdir_list` 2097-2115, `for_signature` 903-907) and
`target_from_source` (SCons/Node/__init__.py 239-240).

A node is the list of the names on the way to it from the root, outermost first (C56: one node per path).  A path is a list of characters.
Simplifications: POSIX (`os.sep` is a slash, no drive letters); which nodes are directories, are derived, are duplicated, exist on disk, and the variant directories are given (`World`; C66 and C67 model how they come about);
`rfile()` (repositories; C76) is given too.
-/

namespace Verif.Attrs
open Verif.FS (Str)

/-- A node. -/
abbrev Path := List Str

/-! ## Util.splitext -/

/-- `s.rfind(c)` for one character: the last place it stands at, or -1. -/
def rfind (c : Char) : Str → Int
  | [] => -1
  | x :: s => if 0 ≤ rfind c s then rfind c s + 1 else if x = c then 0 else -1

/-- `s.isdigit()`: `digit` says which characters are digits. -/
def isdigit (digit : Char → Bool) (s : Str) : Bool := !s.isEmpty && s.all digit

/-- `splitext` (Util/__init__.py 159-170). -/
def splitext (digit : Char → Bool) (path : Str) : Str × Str :=
  if rfind '.' path > rfind '/' path && !isdigit digit (path.drop (rfind '.' path + 1).toNat) then (path.take (rfind '.' path).toNat, path.drop (rfind '.' path).toNat) else (path, [])

/-! ## Names and paths of nodes -/

/-- `node.name`; the root is called `/` (FS.py 2375). -/
def name (n : Path) : Str := match n.getLast? with | some x => x | none => ['/']

/-- `node.dir`; the root is in itself (FS.py 2392). -/
def dir (n : Path) : Path := n.dropLast

/-- `dir.dirname` (FS.py 1685, and 2376 for the root), for the directory reached by the names. -/
def dirname (n : Path) : Str := match n.getLast? with | some x => x ++ ['/'] | none => ['/']

/-- `_abspath` of a directory (FS.py 1664 with 2026-2027 and, in the root, 2402 and 2517-2518), along the names from a directory whose `_abspath` is `acc`. -/
def absFrom (acc : Str) : Path → Str
  | [] => acc
  | x :: xs => absFrom (if acc = ['/'] then acc ++ x else acc ++ '/' :: x) xs

/-- `get_abspath()` (FS.py 876-878; of a directory 2009-2011). -/
def abspath (n : Path) : Str := absFrom ['/'] n

/-- `_path_elements` (FS.py 900-901, 1674, 2391): the nodes on the way from the root, the root and the node itself included. -/
def elements (n : Path) : List Path := n.inits

/-- `l.index(a)`; `none` is the ValueError. -/
def index (a : Path) : List Path → Option Nat
  | [] => none
  | x :: xs => if x = a then some 0 else (index a xs).map (· + 1)

/-- `get_path()` (FS.py 838-856) when `cwd` is `fs.getcwd()`. -/
def getPath (cwd n : Path) : Str :=
  if n = cwd then ['.']
  else
    let elems := elements n
    match index cwd elems with
    | none => (elems.dropLast.flatMap dirname) ++ name n
    | some i => ((elems.drop (i + 1)).dropLast.flatMap dirname) ++ name n

/-- The names in an absolute path: `[x for x in path.split('/') if x]`. -/
def parts (p : Str) : List Str := (p.splitOn '/').filter (fun x => !x.isEmpty)

/-- `os.path.commonprefix` of two lists. -/
def common : List Str → List Str → Nat
  | x :: xs, y :: ys => if x = y then common xs ys + 1 else 0
  | _, _ => 0

/-- `os.path.relpath(path, start)` for absolute paths; simplified: the `abspath` it begins with is left out, as paths of nodes are normalised. -/
def relpathOs (path start : Str) : Str :=
  let s := parts start
  let p := parts path
  let i := common s p
  let rel := List.replicate (s.length - i) ['.', '.'] ++ p.drop i
  if rel = [] then ['.'] else ['/'].intercalate rel

/-! ## What the nodes know -/

/-- What is known about the nodes. -/
structure World where
  cwd : Path                    -- fs.getcwd(): the SConscript's directory while it is read, the top directory afterwards
  sconstruct : Path             -- fs.SConstruct_dir
  isDir : Path → Bool
  srcdir : Path → Option Path   -- set by VariantDir
  duplicate : Path → Bool
  derived : Path → Bool
  onDisk : Path → Bool          -- stat() is not None
  rfile : Path → Path

/-- The loop of `srcdir_list` (FS.py 2104-2111), over the names innermost first; `rel` are the names below. -/
def climb (sd : Path → Option Path) : Path → List Str → List Path
  | [], rel => match sd [] with | some s => [s ++ rel] | none => []
  | x :: up, rel => (match sd (x :: up).reverse with | some s => [s ++ rel] | none => []) ++ climb sd up (x :: rel)

/-- `dir.srcdir_list()` (FS.py 2097-2115). -/
def srcdirList (W : World) (d : Path) : List Path := climb W.srcdir d.reverse []

/-- `Base.srcnode` (FS.py 826-836). -/
def srcnodeBase (W : World) (n : Path) : Path :=
  match srcdirList W (dir n) with
  | s :: _ => s ++ [name n]
  | [] => n

/-- `srcnode()`: of a directory (FS.py 1994-1999), of anything else. -/
def srcnode (W : World) (n : Path) : Path :=
  if W.isDir n then (match W.srcdir n with | some s => s | none => srcnodeBase W n) else srcnodeBase W n

/-- `str(node)` (FS.py 722-748). -/
def str (W : World) (n : Path) : Str :=
  if W.duplicate n || W.derived n then getPath W.cwd n
  else if !W.onDisk (srcnode W n) && W.onDisk n then getPath W.cwd n
  else getPath W.cwd (srcnode W n)

/-- `get_relpath()` (FS.py 884-886): `dir.entry_abspath(name)` relative to the SConstruct directory. -/
def relpath (W : World) (n : Path) : Str := relpathOs (abspath n) (abspath W.sconstruct)

/-! ## The special attributes -/

/-- The keys of `dictSpecialAttrs` (FS.py 555-569). -/
inductive Attr where
  | base | posix | windows | win32 | srcpath | srcdir | dir | abspath | relpath | filebase | suffix | file | rsrcpath | rsrcdir
  deriving DecidableEq, Repr

/-- What an attribute gives: another proxied node, or a `SpecialAttrWrapper` with its text and its `for_signature`. -/
inductive Val where
  | node (n : Path)
  | text (lstr forsig : Str)
  deriving DecidableEq, Repr

/-- `SpecialAttrWrapper(lstr, for_signature)` (Subst.py 116-121): an empty signature is replaced by the text. -/
def wrap (lstr sig : Str) : Val := .text lstr (if sig.isEmpty then lstr else sig)

/-- The functions of `dictSpecialAttrs` (FS.py 489-553). -/
def attr (digit : Char → Bool) (W : World) (n : Path) : Attr → Val
  | .abspath => wrap (Attrs.abspath n) (name n ++ "_abspath".toList)
  | .relpath => wrap (Attrs.relpath W n) (name n ++ "_relpath".toList)
  | .filebase => wrap (splitext digit (name n)).1 (name n ++ "_filebase".toList)
  | .suffix => wrap (splitext digit (name n)).2 (name n ++ "_suffix".toList)
  | .file => wrap (name n) (name n ++ "_file".toList)
  | .base => wrap (splitext digit (getPath W.cwd n)).1 (name n ++ "_base".toList)
  | .posix => .node n
  | .windows | .win32 => wrap ((getPath W.cwd n).map fun c => if c = '/' then '\\' else c) (name n ++ "_windows".toList)
  | .srcpath => .node (srcnode W n)
  | .srcdir => .node (Attrs.dir (srcnode W n))
  | .rsrcpath => .node (W.rfile (srcnode W n))
  | .rsrcdir => .node (Attrs.dir (W.rfile (srcnode W n)))
  | .dir => .node (Attrs.dir n)

/-- `${NODE.a.b.c}`: a text has no special attributes (AttributeError: `none`). -/
def attrs (digit : Char → Bool) (W : World) : Val → List Attr → Option Val
  | v, [] => some v
  | .node n, a :: as => attrs digit W (attr digit W n a) as
  | .text _ _, _ :: _ => none

/-- What stands in the command line (`str()`). -/
def Val.show (W : World) : Val → Str
  | .node n => str W n
  | .text s _ => s

/-- What stands in the command's signature: `for_signature()` of the node (FS.py 903-907, by way of the proxy) or of the wrapper (Subst.py 129-130). -/
def Val.sig : Val → Str
  | .node n => name n
  | .text _ s => s

/-- `target_from_source` (Node/__init__.py 239-240: `node.dir.Entry(prefix + splitext(node.name)[0] + suffix)`); `top` is the top-level directory. -/
def targetFromSource (digit : Char → Bool) (top : Path) (pre suf : Str) (n : Path) : Path :=
  Verif.FS.resolve top (dir n) (pre ++ (splitext digit (name n)).1 ++ suf)

end Verif.Attrs
