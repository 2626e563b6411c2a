import Verif.Attrs.Model
import Mathlib.Data.List.Basic

/-!
# Which action a source is built with (C119): the model

Models `match_splitext`, `DictCmdGenerator`, `DictEmitter` (SCons/Builder.py 119-198) and `Selector` (SCons/Util/__init__.py 921-957): a builder whose action, or emitter, is given for each suffix of the source.

Simplified: POSIX; texts are lists of characters; a dictionary is the list of its keys and values in the order in which they came; `env.subst` is a function; of emitters and actions only which one is taken.
-/

namespace Verif.Select
open Verif.Attrs (splitext)

abbrev Str := List Char

/-- Keys are suffixes, or `None`. -/
abbrev Dict (α : Type) := List (Option Str × α)

variable {α : Type}

/-- `d[k] = v` (`add_action`, Builder.py 143-146). -/
def Dict.set (d : Dict α) (k : Option Str) (v : α) : Dict α :=
  if k ∈ d.map (·.1) then d.map fun p => if p.1 = k then (k, v) else p else d ++ [(k, v)]

/-- `d[k]`. -/
def Dict.get (d : Dict α) (k : Option Str) : Option α :=
  match d with
  | [] => none
  | p :: d => if p.1 = k then some p.2 else Dict.get d k

/-- `path[-n:]`: all of it for 0. -/
def tail (path : Str) (n : Nat) : Str := if n = 0 then path else path.drop (path.length - n)

/-- `max([(len(_f),_f) for _f in matchsuf])[1]`: those of one length are equal. -/
def longest : List Str → Str
  | [] => []
  | k :: ks => if (longest ks).length < k.length then k else longest ks

/-- `match_splitext(path, suffixes)[1]` (Builder.py 119-125); it cuts off what it gives, which is not there to cut off if a suffix is empty. -/
def matchExt (digit : Char → Bool) (path : Str) (keys : List Str) : Str :=
  let m := keys.filter fun k => tail path k.length = k
  if m = [] then (splitext digit path).2 else longest m

/-- What `Selector` gives: what stands in the dictionary, `None`, or KeyError because two suffixes are the same after expansion. -/
inductive Sel (α : Type) where
  | found (a : α)
  | none
  | clash
  deriving DecidableEq, Repr

/-- The dictionary of the expanded suffixes (Util/__init__.py 938-950). -/
def expanded (subst : Str → Str) : Dict α → Dict α → Option (Dict α)
  | s, [] => some s
  | s, (none, _) :: d => expanded subst s d
  | s, (some k, v) :: d => if (s.get (some (subst k))).isSome then none else expanded subst (s ++ [(some (subst k), v)]) d

/-- `Selector.__call__` with `ext` (Util/__init__.py 929-957). -/
def selector (subst : Str → Str) (d : Dict α) (ext : Str) : Sel α :=
  match d.get (some ext) with
  | some a => .found a
  | none =>
    match expanded subst [] d with
    | none => .clash
    | some s =>
      match s.get (some ext) with
      | some a => .found a
      | none => match d.get none with
        | some a => .found a
        | none => .none

/-- What happens when a builder with a dictionary of actions asks for the action. -/
inductive Res (α : Type) where
  | action (a : α)
  | empty
  | differing
  | noExt
  | ambiguous
  | unknown
  | typeError
  deriving DecidableEq, Repr

/-- The loop of `DictCmdGenerator.__call__` (Builder.py 152-160) over the suffixes of the sources; `none` for UserError. -/
def loop (ext : Str) : List Str → Option Str
  | [] => some ext
  | e :: es => if ext ≠ [] ∧ e ≠ ext then none else loop e es

/-- `DictCmdGenerator.__call__` (Builder.py 148-176). `len(None)` is a TypeError, for each source that is looked at. -/
def action (digit : Char → Bool) (subst : Str → Str) (same : Bool) (d : Dict α) (sources : List Str) : Res α :=
  match sources with
  | [] => .empty
  | s :: ss =>
    if none ∈ d.map (·.1) then .typeError
    else
      let keys := d.filterMap (·.1)
      match (if same then loop [] ((s :: ss).map fun p => matchExt digit p keys) else some (matchExt digit s keys)) with
      | none => .differing
      | some ext =>
        if ext = [] then .noExt
        else match selector subst d ext with
          | .found a => .action a
          | .none => .unknown
          | .clash => .ambiguous

/-- `DictEmitter.__call__` (Builder.py 194-198) with the names of the sources: which emitter. -/
def emitter (digit : Char → Bool) (subst : Str → Str) (d : Dict α) (names : List Str) : Sel α :=
  selector subst d (match names with
    | [] => []
    | n :: _ => (splitext digit n).2)

end Verif.Select
