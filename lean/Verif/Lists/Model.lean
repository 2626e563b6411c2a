import Mathlib.Data.List.Basic

/-!
# Lists (C118): the model

Models `UniqueList`, `unique`, `uniquer_hashables`, `flatten` (SCons/Util/__init__.py 453-520, 1005-1075, 1108-1226) with what `UniqueList` inherits from Python's `UserList`: `prerequisites` of a node (`Requires`,
SCons/Node/__init__.py 1307-1312) is a `UniqueList`, the scanners and executors use the functions, `Flatten` is for users.

Simplified: elements have decidable equality that agrees with their hashes; `sort` without `key` and `reverse`; numbers a list is multiplied with are not negative; the sorting in `unique` is given by its result, for equal elements
`t[lasti] = last = t[i]` in place is modelled as the list of what is kept; lists that contain themselves are not modelled.
-/

namespace Verif.Lists

variable {α : Type} [DecidableEq α]

/-- `list(dict.fromkeys(seq))`: `uniquer_hashables` (1073-1074). -/
def fromkeys (l : List α) : List α := l.foldl (fun d x => if x ∈ d then d else d ++ [x]) []

/-- A `UniqueList`: `data`, `unique`. -/
structure UL (α : Type) where
  data : List α
  uniq : Bool
  deriving DecidableEq, Repr

/-- `__init__` (1116-1118), with a list. -/
def UL.new (l : List α) : UL α := ⟨l, true⟩

/-- `__make_unique` (1120-1123). -/
def UL.make (s : UL α) : UL α := if s.uniq then s else ⟨fromkeys s.data, true⟩

/-- Python's index. -/
def pyIdx (n : Nat) (i : Int) : Option Nat :=
  let j := if i < 0 then i + n else i
  if 0 ≤ j ∧ j < n then some j.toNat else none

/-- Where `list.insert` puts: clamped. -/
def pyIns (n : Nat) (i : Int) : Nat :=
  let j := if i < 0 then i + n else i
  if j < 0 then 0 else if j > n then n else j.toNat

inductive Op (α : Type) where
  | append (x : α) | extend (xs : List α) | iadd (xs : List α) | imul (n : Nat) | reverse | sort | clear
  | len | get (i : Int) | contains (x : α) | count (x : α) | index (x : α) | list | eq (xs : List α)
  | insert (i : Int) (x : α) | set (i : Int) (x : α) | del (i : Int) | pop (i : Int) | remove (x : α) | copy
  deriving DecidableEq, Repr

inductive Out (α : Type) where
  | unit | nat (n : Nat) | elem (x : α) | bool (b : Bool) | list (l : List α) | error
  deriving DecidableEq, Repr

/-- One call of a method (1125-1226). Those without a method of their own are inherited and look at `data`: `__contains__`, `__delitem__`, `pop`, `remove`, `clear`, and `copy`, which makes a new `UniqueList` from `data`.
`list` is iteration: by `__getitem__` from 0 on. -/
def UL.step (le : α → α → Bool) (s : UL α) : Op α → UL α × Out α
  | .append x => (⟨s.data ++ [x], false⟩, .unit)
  | .extend xs => (⟨s.data ++ xs, false⟩, .unit)
  | .iadd xs => (⟨s.data ++ xs, false⟩, .unit)
  | .imul n => (⟨(List.replicate n s.data).flatten, false⟩, .unit)
  | .reverse => (⟨s.make.data.reverse, true⟩, .unit)
  | .sort => (⟨s.make.data.mergeSort le, true⟩, .unit)
  | .clear => (⟨[], s.uniq⟩, .unit)
  | .len => (s.make, .nat s.make.data.length)
  | .get i => (s.make, match pyIdx s.make.data.length i with
    | some k => (match s.make.data[k]? with | some x => .elem x | none => .error)
    | none => .error)
  | .contains x => (s, .bool (x ∈ s.data))
  | .count x => (s.make, .nat (s.make.data.count x))
  | .index x => (s.make, if x ∈ s.make.data then .nat (s.make.data.idxOf x) else .error)
  | .list => (s.make, .list s.make.data)
  | .eq xs => (s.make, .bool (s.make.data = xs))
  | .insert i x => (⟨s.data.insertIdx (pyIns s.data.length i) x, false⟩, .unit)
  | .set i x => match pyIdx s.data.length i with
    | some k => (⟨s.data.set k x, false⟩, .unit)
    | none => (s, .error)
  | .del i => match pyIdx s.data.length i with
    | some k => (⟨s.data.eraseIdx k, s.uniq⟩, .unit)
    | none => (s, .error)
  | .pop i => match pyIdx s.data.length i with
    | some k => (⟨s.data.eraseIdx k, s.uniq⟩, match s.data[k]? with | some x => .elem x | none => .error)
    | none => (s, .error)
  | .remove x => if x ∈ s.data then (⟨s.data.erase x, s.uniq⟩, .unit) else (s, .error)
  | .copy => (s, .list (UL.new s.data).make.data)

def UL.run (le : α → α → Bool) (s : UL α) : List (Op α) → UL α × List (Out α)
  | [] => (s, [])
  | o :: os =>
    let (s', r) := s.step le o
    let (s'', rs) := UL.run le s' os
    (s'', r :: rs)

/-- `a == b` of two such lists: `UserList.__eq__` compares with the `data` of the other. -/
def UL.eq (a b : UL α) : Bool := a.make.data = b.data

/-! ## `unique` -/

/-- The loop over the sorted list (1054-1061). -/
def weed (last : α) : List α → List α
  | [] => []
  | x :: xs => if x ≠ last then x :: weed x xs else weed last xs

/-- The last resort (1064-1068). -/
def brute : List α → List α → List α
  | u, [] => u
  | u, x :: xs => brute (if x ∈ u then u else u ++ [x]) xs

/-- `unique` (1005-1068): whether all elements are hashable; what `sorted` gives, `none` for TypeError. -/
def unique (hashable : Bool) (srt : Option (List α)) (seq : List α) : List α :=
  if seq = [] then []
  else if hashable then fromkeys seq
  else
    match srt with
    | some (x :: xs) => x :: weed x xs
    | some [] => []
    | none => brute [] seq

/-! ## `flatten` -/

/-- What may be given to `Flatten`: a string, something else that is not a sequence (a node, a dictionary, `None`), a sequence. -/
inductive Obj where
  | str (s : String)
  | other (n : Nat)
  | seq (xs : List Obj)

mutual
/-- `do_flatten` (453-464), without the accumulator. -/
def doFlatten : List Obj → List Obj
  | [] => []
  | x :: xs => flatItem x ++ doFlatten xs
/-- The body of its loop. -/
def flatItem : Obj → List Obj
  | .str s => [.str s]
  | .other n => [.other n]
  | .seq ys => doFlatten ys
end

/-- `flatten` (467-488). -/
def flatten : Obj → List Obj
  | .str s => [.str s]
  | .other n => [.other n]
  | .seq xs => doFlatten xs

end Verif.Lists
