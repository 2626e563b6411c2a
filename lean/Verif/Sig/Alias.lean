import Mathlib.Data.List.Sort

/-!
# Aliases, values and the signatures of directories (C73)

Models `SCons/Node/Alias.py` (`get_contents` 96-100, `get_csig` 126-144), `SCons/Node/Python.py` (`Value` 49-145, `ValueWithMemo` 148-168),
`get_contents_dir` (SCons/Node/__init__.py 207-213), `Dir.get_csig` (SCons/Node/FS.py 1958-1965), `File.get_content_hash` (2775-2787),
`changed_since_last_build_alias` and `_python` (Node/__init__.py 268-273, 292-297), `children_are_up_to_date` (1539-1554).

Texts are lists of characters. `H` is the hash function; a signature is computed when all that it is about is finished, once, and
then kept (`ninfo.csig`), so that it is a function of the tree below the node.
-/

namespace Verif.Sig.Alias

abbrev Text := List Char
abbrev Name := List Char

/-- A node and what it stands for: a file with its contents (`none`: it does not exist), a `Value` with the text of the value and
its children, an alias with its children, a directory with the names in it and their nodes. -/
inductive Node where
  | file (content : Option Text)
  | value (str : Text) (kids : List Node)
  | alias_ (kids : List Node)
  | dir (kids : List (Name × Node))

/-- `SCons.Util.NOFILE` (Util/__init__.py 120). -/
def nofile : Text := "SCONS_MAGIC_MISSING_FILE_STRING".toList

/-- The order in which Python sorts names. -/
def nameLe (a b : Name) : Bool := decide (String.ofList a ≤ String.ofList b)

/-- `'%s %s\n' % (n.get_csig(), n.name)` for each child, sorted by name (Node/__init__.py 207-213). -/
def dirText (kids : List (Name × Text)) : Text :=
  ((kids.insertionSort fun a b => nameLe a.1 b.1).map fun k => k.2 ++ ' ' :: k.1 ++ ['\n']).flatten

mutual
/-- `get_csig` of the four kinds of nodes. -/
def csig (H : Text → Text) : Node → Text
  | .file c => H (c.getD nofile)
  | .value s kids => s ++ (csigs H kids).flatten
  | .alias_ kids => H (csigs H kids).flatten
  | .dir kids => H (dirText (named H kids))
def csigs (H : Text → Text) : List Node → List Text
  | [] => []
  | k :: ks => csig H k :: csigs H ks
def named (H : Text → Text) : List (Name × Node) → List (Name × Text)
  | [] => []
  | k :: ks => (k.1, csig H k.2) :: named H ks
end

/-- A target that depends on an alias or a value is out of date if the signature is not the recorded one. -/
def changed (H : Text → Text) (now : Node) (recorded : Option Text) : Bool := decide (recorded ≠ some (csig H now))

/-! ## Whether the action of an alias is run -/

/-- The states a node can be in when its parents are considered (Node/__init__.py 85-95). -/
inductive State | noState | upToDate | executed | failed
  deriving DecidableEq

def State.num : State → Nat
  | .noState => 0
  | .upToDate => 3
  | .executed => 4
  | .failed => 5

/-- The loop of `children_are_up_to_date` (Node/__init__.py 1549-1553). -/
def maxState : Nat → List State → Nat
  | st, [] => st
  | st, s :: l => maxState (if s.num ≠ 0 ∧ (st = 0 ∨ s.num > st) then s.num else st) l

/-- `is_up_to_date` of aliases and values (Node/__init__.py 1539-1554). -/
def upToDate (alwaysBuild : Bool) (kids : List State) : Bool :=
  if alwaysBuild then false else decide (maxState 0 kids = 0 ∨ maxState 0 kids = State.num .upToDate)

/-! ## `Value(value, built_value, name)` -/

/-- What Python says about values: `str`, truth, and `hash((value, name))`, `none` if that raises `TypeError`. -/
structure Python (P : Type) where
  str : P → Text
  truthy : P → Bool
  hash : P → Option Text → Option Int

structure ValueNode (P : Type) where
  value : P
  built : Option P
  name : Text

/-- `_memo_lookup_map`, and the nodes made so far; a node is its position. -/
structure Memo (P : Type) where
  map : List (Int × Nat)
  nodes : List (ValueNode P)

/-- `Value.__init__` (Python.py 66-80). -/
def make {P : Type} (py : Python P) (v : P) (built : Option P) (name : Option Text) : ValueNode P where
  value := v
  built := built
  name := match name with
    | some n => if n ≠ [] then n else py.str v
    | none => py.str v

/-- `ValueWithMemo` (Python.py 148-168): the memory afterwards and the node returned. -/
def valueWithMemo {P : Type} (py : Python P) (m : Memo P) (v : P) (built : Option P) (name : Option Text) : Memo P × Nat :=
  if (built.map py.truthy).getD false then ({ m with nodes := m.nodes ++ [make py v built name] }, m.nodes.length)
  else match py.hash v name with
    | none => ({ m with nodes := m.nodes ++ [make py v none name] }, m.nodes.length)
    | some h =>
      match m.map.lookup h with
      | some i => (m, i)
      | none => ({ map := (h, m.nodes.length) :: m.map, nodes := m.nodes ++ [make py v built name] }, m.nodes.length)

/-- The calls of a run. -/
structure Call (P : Type) where
  value : P
  built : Option P
  name : Option Text

/-- The nodes the calls return. -/
def run {P : Type} (py : Python P) : Memo P → List (Call P) → Memo P × List Nat
  | m, [] => (m, [])
  | m, c :: cs =>
    ((run py (valueWithMemo py m c.value c.built c.name).1 cs).1,
      (valueWithMemo py m c.value c.built c.name).2 :: (run py (valueWithMemo py m c.value c.built c.name).1 cs).2)

/-- CPython's `hash` of an integer (64 bit): the remainder by the prime 2^61-1 with the sign of the number, and -2 instead of -1. -/
def intHash (n : Int) : Int :=
  let r := Int.tmod n (2 ^ 61 - 1)
  if r = -1 then -2 else r

end Verif.Sig.Alias
