import Mathlib.Data.List.Basic
import Mathlib.Data.List.Infix

/-!
# File names and nodes (C56)

Models `FS._lookup` (SCons/Node/FS.py 1334-1468), the regular expression that decides whether a name needs normalising (190-228), `RootDir._lookup_abs` (2472-2511), `must_be_same` (660-668, 1115-1121, 2467-2470), and
`Dir.rel_path` (1803-1856).

Simplifications: no drive letters (`do_splitdrive` is false, `os.sep` is `/`), so one root; `diskcheck_match()`, which raises when the file system has a file where a directory is wanted or the other way round, is a function of
the path and the kind; nodes are numbered in order of creation, the root is 0.  A node's `labspath` is made of the names on the way to it (`entry_labspath`, 2029-2030, 2520-2521).
`nc` is `_my_normcase` (400-406): the identity, or upper case on systems that ignore case.
-/

namespace Verif.FS

abbrev Str := List Char

inductive Kind where
  | entry | file | dir
deriving DecidableEq

/-- A node: the names on the way from the root (`_path_elements`), and its class. -/
structure Node where
  comps : List Str
  kind : Kind
deriving DecidableEq

/-- `get_labspath()`. -/
def lab (cs : List Str) : Str := cs.flatMap fun c => '/' :: c

/-- Nodes with number `≥ next` do not exist; `dict` is `_lookupDict`; `cwd` is `fs._cwd`, `top` is `fs.Top`. -/
structure St where
  next : Nat
  node : Nat → Node
  dict : Str → Option Nat
  cwd : Nat
  top : Nat

/-! ## Strings -/

/-- `p.rstrip('/')`. -/
def rstrip (p : Str) : Str := (p.reverse.dropWhile (· = '/')).reverse

/-- `p.strip('/')`. -/
def strip (p : Str) : Str := rstrip (p.dropWhile (· = '/'))

/-- `p.rsplit('/', 1)`; `none` when there is no slash. -/
def rsplit (p : Str) : Option (Str × Str) :=
  if '/' ∈ p then some ((p.reverse.dropWhile (· ≠ '/')).tail.reverse, (p.reverse.takeWhile (· ≠ '/')).reverse) else none

/-- `(?:/|$)`: a slash, or the end (Python's `$` also matches before a last new line). -/
def slashOrEnd : Str → Bool
  | [] => true
  | ['\n'] => true
  | c :: _ => c = '/'

/-- `.*X` at the beginning: some rest of the string, with no new line before it, fits `X`. -/
def anyRest (f : Str → Bool) : Str → Bool
  | [] => f []
  | c :: r => f (c :: r) || (c ≠ '\n' && anyRest f r)

/-- `//` -/
def twoSlashes : Str → Bool
  | '/' :: '/' :: _ => true
  | _ => false

/-- `\.\.(?:/|$)` -/
def dotDot : Str → Bool
  | '.' :: '.' :: r => slashOrEnd r
  | _ => false

/-- `/\.\.(?:/|$)` -/
def slashDotDot : Str → Bool
  | '/' :: r => dotDot r
  | _ => false

/-- `\./` -/
def dotSlash : Str → Bool
  | '.' :: '/' :: _ => true
  | _ => false

/-- `/\.(?:/|$)` -/
def slashDot : Str → Bool
  | '/' :: '.' :: r => slashOrEnd r
  | _ => false

/-- `needs_normpath_match(p)` (FS.py 190-228). -/
def needsNorm (p : Str) : Bool := anyRest twoSlashes p || dotDot p || anyRest slashDotDot p || dotSlash p || anyRest slashDot p

/-- The loop of `_lookup` over the components (FS.py 1457-1465). -/
def outs : List Str → List Str → List Str
  | acc, [] => acc
  | acc, d :: ds => if d = ['.', '.'] then outs acc.dropLast ds else if d = [] ∨ d = ['.'] then outs acc ds else outs (acc ++ [d]) ds

/-- FS.py 1456-1466. -/
def normalise (p : Str) : Str := '/' :: ['/'].intercalate (outs [] (p.splitOn '/').tail)

/-- The absolute path `_lookup` works out for a name (FS.py 1363-1466); `dirLab` is the `labspath` of the directory the name is relative to. -/
def absolute (topLab dirLab p : Str) : Str :=
  match p with
  | '#' :: p =>
    let p := strip p
    let q := if p = [] ∨ p = ['.'] then topLab else topLab ++ '/' :: p
    if needsNorm p then normalise q else q
  | p =>
    let p := if p ≠ ['/'] then rstrip p else p
    let q := if p.head? = some '/' then p else if p = [] ∨ p = ['.'] then dirLab else dirLab ++ '/' :: p
    if needsNorm p then normalise q else q

/-! ## Nodes -/

variable (nc : Str → Str) (disk : Str → Kind → Bool)

/-- `isinstance(node, klass) or klass is Entry`; an Entry changes its class (FS.py 660-668, 1115-1121). -/
def mustBeSame (S : St) (n : Nat) (k : Kind) : St × Option Nat :=
  match (S.node n).kind with
  | .entry => ({ S with node := fun m => if m = n then { S.node n with kind := k } else S.node m }, some n)
  | k' => if k = .entry ∨ k = k' then (S, some n) else (S, none)

/-- A new node in the directory `d`. -/
def St.add (S : St) (key : Str) (nd : Node) : St :=
  { S with next := S.next + 1, node := fun m => if m = S.next then nd else S.node m, dict := fun k => if k = key then some S.next else S.dict k }

theorem length_dropWhile_le {α : Type} (f : α → Bool) (l : List α) : (l.dropWhile f).length ≤ l.length := by
  induction l with
  | nil => simp
  | cons a l ih => rw [List.dropWhile_cons]; split <;> simp <;> omega

theorem rsplit_lt {p d f : Str} (h : rsplit p = some (d, f)) : d.length < p.length := by
  unfold rsplit at h
  split at h
  · rename_i hm
    simp only [Option.some.injEq, Prod.mk.injEq] at h
    rw [← h.1]
    have hl := length_dropWhile_le (fun c => decide (c ≠ '/')) p.reverse
    have hp : 0 < p.length := by cases p <;> simp_all
    simp only [List.length_reverse] at hl
    simp only [List.length_reverse, List.length_tail]
    omega
  · cases h

/-- `RootDir._lookup_abs` (FS.py 2472-2511) with `create=True`; the second component is the node found or made, `none` when an exception is raised. -/
def lookupAbs (S : St) (p : Str) (k : Kind) : St × Option Nat :=
  match S.dict (nc p) with
  | some n => mustBeSame S n k
  | none =>
    match h : rsplit p with
    | none => (S, none)
    | some (d, f) =>
      match lookupAbs S d .dir with
      | (S1, none) => (S1, none)
      | (S1, some dn) =>
        let nd : Node := ⟨(S1.node dn).comps ++ [f], k⟩
        if disk (lab nd.comps) k then (S1.add (nc p) nd, some S1.next) else (S1, none)
termination_by p.length
decreasing_by exact rsplit_lt h

/-- `fs.File(name, directory)`, `fs.Dir(...)`, `fs.Entry(...)`; with `create = false` a missing node raises. -/
def lookup (S : St) (p : Str) (dir : Option Nat) (k : Kind) (create : Bool) : St × Option Nat :=
  let a := absolute (lab (S.node S.top).comps) (lab (S.node (dir.getD S.cwd)).comps) p
  if !create && (S.dict (nc a)).isNone then (S, none) else lookupAbs nc disk S a k

/-- What a program does with the file system object. -/
inductive Op where
  | lookup (p : Str) (dir : Option Nat) (k : Kind) (create : Bool)
  | chdir (n : Nat)                      -- `fs.chdir(node)` (FS.py 1300-1314)
deriving DecidableEq

def step (S : St) : Op → St × Option Nat
  | .lookup p dir k create => lookup nc disk S p dir k create
  | .chdir n => ({ S with cwd := n }, some n)

/-- The file system object after `FS()` (FS.py 1251-1278), before `Top` is looked up: the root is there under three names (FS.py 2413-2423). -/
def init : St where
  next := 1
  node := fun _ => ⟨[], .dir⟩
  dict := fun k => if k = [] ∨ k = ['/'] ∨ k = ['/', '/'] then some 0 else none
  cwd := 0
  top := 0

/-- A program: directories named in it are directories that exist. -/
inductive Runs : St → List (Op × Option Nat) → St → Prop
  | nil (S) : Runs S [] S
  | cons {S op S' r ops S''} : step nc disk S op = (S', r) →
      (∀ p d k c, op = .lookup p (some d) k c → d < S.next ∧ (S.node d).kind = .dir) → (∀ n, op = .chdir n → n < S.next ∧ (S.node n).kind = .dir) →
      Runs S' ops S'' → Runs S ((op, r) :: ops) S''

/-! ## `rel_path` -/

/-- `dir.rel_path(other)` (FS.py 1830-1852) in terms of the names on the way to both; `_path_elements` are compared as nodes, of which there is one for each path.
The joining of names with `os.sep` is left out. -/
def relPath (self other : List Str) : List Str :=
  if other = self then [['.']]
  else if other <+: self then List.replicate (self.length - other.length) ['.', '.']
  else
    match h : other.getLast? with
    | none => []
    | some name => if relPath self other.dropLast = [['.']] then [name] else relPath self other.dropLast ++ [name]
termination_by other.length
decreasing_by
  all_goals
    have h1 : other ≠ [] := by intro e; simp [e] at h
    have h2 := List.length_pos_iff.2 h1
    simp only [List.length_dropLast]; omega

/-! ## Specification -/

/-- Names after following a relative path from a directory: empty names and `.` stay, `..` goes up (and stays at the root). -/
def walk : List Str → List Str → List Str
  | cur, [] => cur
  | cur, d :: ds => if d = [] ∨ d = ['.'] then walk cur ds else if d = ['.', '.'] then walk cur.dropLast ds else walk (cur ++ [d]) ds

/-- The path a name stands for: `#` begins at the top-level directory, a slash at the root, any other name at the given directory. -/
def resolve (top dir : List Str) : Str → List Str
  | '#' :: p => walk top (p.splitOn '/')
  | '/' :: p => walk [] (p.splitOn '/')
  | p => walk dir (p.splitOn '/')

end Verif.FS
