/-!
# Search paths

`SCons/PathList.py` (all), `SCons/Scanner/__init__.py` 58–66 (`FindPathDirs`), `SCons/Defaults.py` 403–428 (`_concat`), 514–522 (the
call in `_stripixes`), `SCons/Node/FS.py` 933–969 (`Rfindalldirs`, `RDirs`).

Parameters: `sub`, what `env.subst` (with `node_conv`) makes of a string for the target and source at hand (C31–C35 are about that);
`rdirs`, the directories for a name, seen from the directory of the target, with those of the repositories (C66, C76).
POSIX: paths are separated by `:`. Simplification: objects are nodes or `None`; `_concat_ixes` is in C55.
-/

namespace Verif.PathL

abbrev Str := List Char

/-- The values of variables that are not sequences. -/
inductive Leaf where
  | str (s : Str)
  /-- a `Dir` or `File` -/
  | node (n : Nat)
  /-- `None` -/
  | none
deriving DecidableEq, Repr

inductive Val where
  | leaf (l : Leaf)
  /-- a list or tuple -/
  | seq (l : List Val)

mutual
/-- `SCons.Util.flatten` -/
def Val.flat : Val → List Leaf
  | .leaf l => [l]
  | .seq l => flatL l
def flatL : List Val → List Leaf
  | [] => []
  | v :: l => v.flat ++ flatL l
end

/-- What `_PathList_key` returns, 174–188. -/
inductive Key where
  | one (l : Leaf)
  | many (l : List Leaf)
deriving DecidableEq, Repr

def keyOf : Val → Key
  | .leaf l => .one l
  | .seq l => .many (flatL l)

/-- `s.split(os.pathsep)` -/
def split : Str → List Str
  | [] => [[]]
  | c :: r => if c = ':' then [] :: split r else
    match split r with
    | [] => [[c]]
    | x :: l => (c :: x) :: l

/-- `TYPE_STRING_NO_SUBST`, `TYPE_STRING_SUBST`, `TYPE_OBJECT` -/
inductive Kind where
  | plain
  | subst
  | object
deriving DecidableEq, Repr

abbrev Entries := List (Kind × Leaf)

/-- The type of an entry, 105–114. -/
def kind : Leaf → Kind
  | .str s => if '$' ∈ s then .subst else .plain
  | _ => .object

/-- `_PathList.__init__`, 95–117. -/
def parse (k : Key) (doSplit : Bool) : Entries :=
  let ls : List Leaf := match k with
    | .one (.str s) => if doSplit then (split s).map Leaf.str else [Leaf.str s]
    | .one l => [l]
    | .many l => l
  ls.map fun l => (kind l, l)

/-- `_memo['PathList']` -/
abbrev Memo := List (Key × Entries)

/-- `PathListCache.PathList`, 191–216. The memory is asked by the key only. -/
def pathList (m : Memo) (v : Val) (doSplit : Bool) : Entries × Memo :=
  match m.find? (fun e => decide (e.1 = keyOf v)) with
  | some e => (e.2, m)
  | none => (parse (keyOf v) doSplit, (keyOf v, parse (keyOf v) doSplit) :: m)

/-- Is it true, in Python? -/
def Leaf.truthy : Leaf → Bool
  | .str s => decide (s ≠ [])
  | .node _ => true
  | .none => false

/-- `node_conv`, 47–64: `str(None)` is `None`. -/
def nodeConv : Leaf → Leaf
  | .none => .str "None".toList
  | l => l

/-- `subst_path`, 123–143. -/
def substPath (sub : Str → Val) : Entries → List Leaf
  | [] => []
  | (.subst, .str s) :: r =>
    (match sub s with
      | .seq l => flatL l
      | .leaf l => if l.truthy then [l] else []) ++ substPath sub r
  | (.object, l) :: r => (if (nodeConv l).truthy then [nodeConv l] else []) ++ substPath sub r
  | (_, l) :: r => (if l.truthy then [l] else []) ++ substPath sub r

/-- `Rfindalldirs`, 953–960. -/
def findAll (rdirs : Str → List Nat) : List Leaf → List Nat
  | [] => []
  | .str s :: r => rdirs s ++ findAll rdirs r
  | .node n :: r => n :: findAll rdirs r
  -- cannot be in the list: `subst_path` turns it into a string
  | .none :: r => findAll rdirs r

/-- `FindPathDirs.__call__`, 58–66: where the scanner looks. -/
def scannerDirs (sub : Str → Val) (rdirs : Str → List Nat) (m : Memo) (var : Option Val) : List Nat × Memo :=
  match var with
  | none => ([], m)
  | some v => (findAll rdirs (substPath sub (pathList m v true).1), (pathList m v true).2)

/-- Is the value true? An empty sequence is not. -/
def Val.truthy : Val → Bool
  | .leaf l => l.truthy
  | .seq l => !l.isEmpty

/-- `_concat` with `RDirs`, 411–416: the directories for which there are flags. A variable that does not exist is empty. -/
def flagDirs (sub : Str → Val) (rdirs : Str → List Nat) (m : Memo) (var : Option Val) : List Nat × Memo :=
  match var with
  | none => ([], m)
  | some v => if v.truthy then (findAll rdirs (substPath sub (pathList m v true).1), (pathList m v true).2) else ([], m)

end Verif.PathL
