import Mathlib.Data.List.Basic
import Mathlib.Data.List.Nodup
import Mathlib.Data.List.SplitOn

/-!
# CPPDEFINES: the rules for adding preprocessor macros, and the command-line flags made of them (C51)

Models `_add_cppdefines` (SCons/Environment.py 222-420), as called by Append, Prepend, AppendUnique and PrependUnique for `CPPDEFINES`, and `processDefines` (SCons/Defaults.py 553-620).

Simplifications: strings are lists of characters; `words` is `str.split()` (any function that yields non-empty words will do); macro names and
values are strings, integers or None, `txt` is `str(n)`; None as an element of a list (which `processDefines` skips) is left out; two dicts inside a list are compared with their order.
-/

namespace Verif.Env.Cppdef

abbrev Str := List Char

/-- A macro name or value. -/
inductive Sc where
  | none
  | str (s : Str)
  | int (n : Int)
deriving DecidableEq

/-- An element of a CPPDEFINES list: a string `NAME` or `NAME=VALUE`, a tuple or list `(NAME, VALUE)`, or a dict. -/
inductive Entry where
  | str (s : Str)
  | seq (tuple : Bool) (xs : List Sc)
  | dict (d : List (Sc × Sc))
deriving DecidableEq

/-- What CPPDEFINES can be, and what can be added to it. -/
inductive Val where
  | str (s : Str)
  | tuple (xs : List Sc)
  | list (es : List Entry)
  | deque (es : List Entry)
  | dict (d : List (Sc × Sc))
deriving DecidableEq

/-- Python's `bool()`. -/
def Entry.truthy : Entry → Bool
  | .str s => !s.isEmpty
  | .seq _ xs => !xs.isEmpty
  | .dict d => !d.isEmpty

/-- `_macro_conv` (Environment.py 288-297); a dict stays a dict and equals no list. -/
def conv : Entry → List Sc ⊕ List (Sc × Sc)
  | .str s =>
    match s.splitOn '=' with
    | [_] => .inl [.str s, .none]
    | parts => .inl (parts.map Sc.str)
  | .seq _ xs => .inl xs
  | .dict d => .inr d

/-- `_is_in` (Environment.py 265-307), up to its last `return False`. -/
def isIn (item : Entry) (defines : List Entry) : Option Entry :=
  if item ∈ defines then some item else defines.find? (fun d => conv item = conv d)

/-- `match = _is_in(...)`, used as a truth value: a match that is itself falsy counts as none. -/
def matchIn (item : Entry) (defines : List Entry) : Option Entry := (isIn item defines).filter Entry.truthy

/-- `_add_define` (Environment.py 254-262). -/
def push (pre : Bool) (item : Entry) (defines : List Entry) : List Entry := if pre then item :: defines else defines ++ [item]

/-- One item of a dict or a string, or a tuple (Environment.py 348-395). -/
def addOne (pre uniq de : Bool) (defines : List Entry) (item : Entry) : List Entry :=
  if uniq then
    match matchIn item defines with
    | some m => if de then push pre item (defines.erase m) else defines
    | none => push pre item defines
  else push pre item defines

/-- One item of a list (Environment.py 399-409); `tmp` collects what is to be added at the end. -/
def listStep (uniq de : Bool) (st : List Entry × List Entry) (item : Entry) : List Entry × List Entry :=
  if uniq then
    match matchIn item st.1 with
    | some m => if de then (st.1.erase m, st.2 ++ [item]) else st
    | none => (st.1, st.2 ++ [item])
  else (st.1, st.2 ++ [item])

/-- A list (Environment.py 397-414); `deque.extendleft` puts the elements in one after the other, so the last one comes first. -/
def addList (pre uniq de : Bool) (defines : List Entry) (items : List Entry) : List Entry :=
  let st := items.foldl (listStep uniq de) (defines, [])
  if pre then st.2.reverse ++ st.1 else st.1 ++ st.2

def dictEntries (d : List (Sc × Sc)) : List Entry := d.map (fun p => .seq true [p.1, p.2])

variable (words : Str → List Str)

/-- Conversion of the existing value to a deque (Environment.py 324-345); `none` for the UserError. -/
def toDeque : Val → Option (List Entry)
  | .deque es => some es
  | .str s => some ((words s).map Entry.str)
  | .tuple xs => if xs.length > 2 then none else some [.seq true xs]
  | .list es => some (es.flatMap fun e => match e with | .dict d => dictEntries d | e => [e])
  | .dict d => some (dictEntries d)

/-- The addition proper (Environment.py 347-414). -/
def addTo (pre uniq de : Bool) (defines : List Entry) : Val → Option (List Entry)
  | .dict d => some ((dictEntries d).foldl (addOne pre uniq de) defines)
  | .str s => some (((words s).map Entry.str).foldl (addOne pre uniq de) defines)
  | .tuple xs =>
    match xs with
    | [n] => some (addOne pre uniq de defines (.seq true [n, .none]))
    | [n, v] => some (addOne pre uniq de defines (.seq true [n, v]))
    | _ => none
  | .list es | .deque es => some (addList pre uniq de defines es)

/-- `_add_cppdefines` (Environment.py 222-414): the new value of CPPDEFINES, or `none` for a UserError. -/
def addCpp (pre uniq de : Bool) (cur : Option Val) (v : Val) : Option Val :=
  match cur with
  | none => match v with | .str s => some (.list ((words s).map Entry.str)) | v => some v
  | some c => (toDeque words c).bind fun ds => (addTo words pre uniq de ds v).map Val.deque

variable (txt : Int → Str)

/-- `str(x)` / the text of `x` in an f-string. -/
def Sc.text : Sc → Str
  | .none => "None".toList
  | .str s => s
  | .int n => txt n

/-- `NAME=VALUE` or `NAME`. -/
def macroText (n v : Sc) : Str := if v = .none then n.text txt else n.text txt ++ '=' :: v.text txt

/-- The flags of one element (Defaults.py 571-600); `none` for the error on a tuple of the wrong length. -/
def entryFlags : Entry → Option (List Str)
  | .str s => some [s]
  | .seq _ [n] => some [n.text txt]
  | .seq _ [n, v] => some [macroText txt n v]
  | .seq _ _ => none
  | .dict d => some (d.map fun p => macroText txt p.1 p.2)

/-- `processDefines` (Defaults.py 553-620). -/
def flags : Val → Option (List Str)
  | .list es | .deque es => (es.mapM (entryFlags txt)).map List.flatten
  | .tuple xs => entryFlags txt (.seq true xs)
  | .dict d => some (d.map fun p => macroText txt p.1 p.2)
  | .str s => some (words s)

end Verif.Env.Cppdef
