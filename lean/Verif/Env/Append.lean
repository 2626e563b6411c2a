import Mathlib.Data.List.Basic
import Mathlib.Data.List.Nodup
import Mathlib.Data.List.Dedup

/-!
# Append, Prepend, AppendUnique, PrependUnique (C50)

Models SCons/Environment.py 1606-1672 (`Append`), 1720-1766 (`AppendUnique`), 2114-2179 (`Prepend`), 2217-2263 (`PrependUnique`), 203-220
(`_delete_duplicates`) and the `+` of `CLVar` (SCons/Util/__init__.py 872-921).

The result of a call is the new value of the variable, or `none` when an exception escapes (the variable then keeps its value).

Simplifications: values are strings, None, opaque hashable objects (a File node, say: truthy, with no `+`, `append`, `insert`, `update`), plain lists, `CLVar`s and
dicts; list elements are such scalars or dicts, dict keys and values are scalars.  Numbers, tuples, sets, deques and nested lists are not modelled;
`CPPDEFINES` has its own rules, see `Verif.Env.Cppdef`.  `split` is `str.split()`; the theorems hold for any function in its place.
In-place updates of the old value are modelled by their result (the keyword values themselves are copied first, Environment.py 1611, 158-160).
-/

namespace Verif.Env.Append

inductive Scalar where
  | none
  | str (s : String)
  | obj (n : Nat)
deriving DecidableEq

abbrev PyDict := List (Scalar × Scalar)

inductive Item where
  | sc (x : Scalar)
  | dict (d : PyDict)
deriving DecidableEq

inductive Val where
  | sc (x : Scalar)
  | list (xs : List Item)
  | clvar (xs : List Item)
  | dict (d : PyDict)
deriving DecidableEq

/-- `dict.__setitem__`: replaces in place or appends. -/
def dset (d : PyDict) (k v : Scalar) : PyDict :=
  if d.any (fun p => p.1 = k) then d.map (fun p => if p.1 = k then (k, v) else p) else d ++ [(k, v)]

/-- `dict.update(other)`. -/
def dupdate (d other : PyDict) : PyDict := other.foldl (fun d p => dset d p.1 p.2) d

/-- `d.get(k)`. -/
def dget (d : PyDict) (k : Scalar) : Option Scalar := (d.find? (fun p => p.1 = k)).map Prod.snd

/-- Python's `bool(x)`. -/
def Val.truthy : Val → Bool
  | .sc .none => false
  | .sc (.str s) => s ≠ ""
  | .sc (.obj _) => true
  | .list xs | .clvar xs => !xs.isEmpty
  | .dict d => !d.isEmpty

/-- A value as an element of a list (`l.append(v)`, `l.insert(0, v)`, `[v]`); used only for values that are not lists themselves. -/
def Val.asItem : Val → Item
  | .sc x => .sc x
  | .dict d => .dict d
  | .list _ | .clvar _ => .sc .none

variable (split : String → List String)

/-- `CLVar(v)`'s elements: `Split` (Util/__init__.py 850-869, 906-907). -/
def clItems : Val → List Item
  | .sc .none => []
  | .sc (.str s) => (split s).map (fun w => .sc (.str w))
  | .sc (.obj n) => [.sc (.obj n)]
  | .list xs | .clvar xs => xs
  | .dict d => [.dict d]

/-- Python's `a + b`; `none` for a TypeError.  (A `CLVar` on either side: Util/__init__.py 909-913; `list.__add__` and `str.__add__` otherwise.) -/
def add : Val → Val → Option Val
  | .clvar xs, v => some (.clvar (xs ++ clItems split v))
  | v, .clvar ys => some (.clvar (clItems split v ++ ys))
  | .list xs, .list ys => some (.list (xs ++ ys))
  | .sc (.str a), .sc (.str b) => some (.sc (.str (a ++ b)))
  | _, _ => none

/-- `orig[v] = None` for every `v` of a list (Environment.py 1656-1658); unhashable elements raise. -/
def setAll : PyDict → List Item → Option PyDict
  | d, [] => some d
  | d, .sc k :: xs => setAll (dset d k .none) xs
  | _, .dict _ :: _ => none

/-- The part of `Append` / `Prepend` for an existing dict (Environment.py 1650-1670, 2157-2177).
`dict.update` of a non-empty string raises ValueError, of None or an object TypeError; of an empty string it does nothing. -/
def intoDict (d : PyDict) : Val → Option Val
  | .list xs | .clvar xs => (setAll d xs).map Val.dict
  | .dict e => some (.dict (dupdate d e))
  | .sc (.str s) => if s = "" then some (.dict d) else some (.dict (dset d (.str s) .none))
  | .sc x => some (.dict (dset d x .none))

/-- One variable of `env.Append(**kw)` (Environment.py 1611-1670). -/
def append (old : Option Val) (new : Val) : Option Val :=
  match old with
  | none => some new
  | some (.dict d) => intoDict d new
  | some orig =>
    match add split orig new with
    | some v => some v
    | none =>
      match orig with
      | .list xs => if new.truthy then some (.list (xs ++ [new.asItem])) else some orig
      | _ =>
        if orig.truthy then
          match new with
          | .list ys => some (.list (orig.asItem :: ys))
          | _ => none                         -- no `insert`: AttributeError
        else some new

/-- One variable of `env.Prepend(**kw)` (Environment.py 2119-2177). -/
def prepend (old : Option Val) (new : Val) : Option Val :=
  match old with
  | none => some new
  | some (.dict d) => intoDict d new
  | some orig =>
    match add split new orig with
    | some v => some v
    | none =>
      match new with
      | .list ys => if orig.truthy then some (.list (ys ++ [orig.asItem])) else some new
      | _ =>
        if new.truthy then
          match orig with
          | .list xs => some (.list (new.asItem :: xs))
          | _ => none                         -- no `insert`: AttributeError
        else some orig

/-- Hashable, so that `_delete_duplicates` can put it in its `seen` set. -/
def Item.hashable : Item → Bool
  | .sc _ => true
  | .dict _ => false

/-- `_delete_duplicates(l, keep_last=False)` (Environment.py 203-220); `seen` as in the code. -/
def dedupFirst (seen : List Item) : List Item → List Item
  | [] => []
  | x :: xs => if x.hashable then (if x ∈ seen then dedupFirst seen xs else x :: dedupFirst (x :: seen) xs) else x :: dedupFirst seen xs

/-- `_delete_duplicates(l, keep_last)`. -/
def deleteDuplicates (xs : List Item) (keepLast : Bool) : List Item :=
  if keepLast then (dedupFirst [] xs.reverse).reverse else dedupFirst [] xs

def Val.items? : Val → Option (List Item)
  | .list xs | .clvar xs => some xs
  | _ => none

/-- `type(dk)(items)`, for what list comprehension and `+` keep of the class of `dk`. -/
def Val.withItems : Val → List Item → Val
  | .clvar _, xs => .clvar xs
  | _, xs => .list xs

/-- One variable of `env.AppendUnique(delete_existing, **kw)` (Environment.py 1733-1765).  A list comprehension gives a plain list. -/
def appendUnique (de : Bool) (old : Option Val) (new : Val) : Option Val :=
  let new := match new.items? with | some xs => .list (deleteDuplicates xs de) | none => new
  match old with
  | none => some new
  | some dk =>
    if dk = .sc (.str "") ∨ dk = .sc .none then some new
    else match dk, new with
      | .dict d, .dict e => some (.dict (dupdate d e))
      | dk, .list ys =>
        let dk := match dk.items? with | some _ => dk | none => .list [dk.asItem]
        let xs := dk.items?.getD []
        if de then some (.list (xs.filter (· ∉ ys) ++ ys))
        else some (dk.withItems (xs ++ ys.filter (· ∉ xs)))
      | dk, new =>
        match dk.items? with
        | some xs =>
          if de then some (.list (xs.filter (· ≠ new.asItem) ++ [new.asItem]))
          else if new.asItem ∈ xs then some dk else some (dk.withItems (xs ++ [new.asItem]))
        | none => if de then none else add split dk new

/-- One variable of `env.PrependUnique(delete_existing, **kw)` (Environment.py 2230-2262). -/
def prependUnique (de : Bool) (old : Option Val) (new : Val) : Option Val :=
  let new := match new.items? with | some xs => .list (deleteDuplicates xs (!de)) | none => new
  match old with
  | none => some new
  | some dk =>
    if dk = .sc (.str "") ∨ dk = .sc .none then some new
    else match dk, new with
      | .dict d, .dict e => some (.dict (dupdate d e))
      | dk, .list ys =>
        let dk := match dk.items? with | some _ => dk | none => .list [dk.asItem]
        let xs := dk.items?.getD []
        if de then some (.list (ys ++ xs.filter (· ∉ ys)))
        else some (dk.withItems (ys.filter (· ∉ xs) ++ xs))
      | dk, new =>
        match dk.items? with
        | some xs =>
          if de then some (.list (new.asItem :: xs.filter (· ≠ new.asItem)))
          else if new.asItem ∈ xs then some dk else some (dk.withItems (new.asItem :: xs))
        | none => if de then none else add split new dk

/-- A whole call with several keyword arguments: the variables are treated one after the other; an exception ends the call, leaving the variables treated before it changed.
The flag says whether it raised. -/
def callAll {κ : Type} [DecidableEq κ] (f : Option Val → Val → Option Val) : (κ → Option Val) → List (κ × Val) → (κ → Option Val) × Bool
  | env, [] => (env, false)
  | env, (k, v) :: kw =>
    match f (env k) v with
    | none => (env, true)
    | some r => callAll f (fun k' => if k' = k then some r else env k') kw

end Verif.Env.Append
