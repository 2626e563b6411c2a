import Mathlib.Data.List.Basic
import Mathlib.Data.List.Forall2
import Mathlib.Data.Set.Basic

/-!
# Clone(), and what an environment shares with its clone (C52)

Models `semi_deepcopy` (SCons/Util/__init__.py 504-558) on a heap of Python objects, and `Environment.Clone` (SCons/Environment.py 1768-1835) as far as the construction variables are concerned:
`clone._dict = semi_deepcopy_dict(self._dict, ['BUILDERS'])`.  The same copy is made of keyword values by `Replace`, `Append` and so on (`copy_non_reserved_keywords`, 158-160).

Simplifications: a value is an immutable atom (a string, a number, None, a function) or a reference; dict keys are atoms; `BUILDERS`, which gets a new `BuilderDict` of its own, and the tools and
keyword arguments of `Clone` are left out; classes with a `__semi_deepcopy__` method (only `BuilderDict` in SCons) are left out.
The recursion depth is a parameter: `none` means it was exceeded (Python's RecursionError, for instance on a list that contains itself).
-/

namespace Verif.Env.Clone

inductive Val where
  | atom (a : Nat)
  | ref (l : Nat)
deriving DecidableEq

/-- `list`, `tuple`, subclasses of `UserList` such as `CLVar`, `deque`. -/
inductive SeqKind where
  | list | tuple | userList (cls : Nat) | deque
deriving DecidableEq

/-- `dict`, subclasses of `UserDict`. -/
inductive MapKind where
  | dict | userDict (cls : Nat)
deriving DecidableEq

/-- An object.  `other` is everything `semi_deepcopy` returns as it is: sets, instances of user classes, subclasses of `list` and `dict`, Nodes, Actions. -/
inductive Obj where
  | seq (k : SeqKind) (xs : List Val)
  | map (k : MapKind) (kvs : List (Nat × Val))
  | other (cls : Nat) (fields : List Val)
deriving DecidableEq

/-- Objects numbered in order of creation; numbers `≥ next` are not in use. -/
structure Heap where
  next : Nat
  obj : Nat → Obj

def Heap.alloc (h : Heap) (o : Obj) : Heap := ⟨h.next + 1, fun l => if l = h.next then o else h.obj l⟩

/-- What is in a container; nothing is taken from objects of other kinds. -/
def Obj.children : Obj → List Val
  | .seq _ xs => xs
  | .map _ kvs => kvs.map Prod.snd
  | .other _ _ => []

def Obj.container : Obj → Bool
  | .other _ _ => false
  | _ => true

/-- `[semi_deepcopy(x) for x in xs]` (Util/__init__.py 529-530, 524-527), for a copier `f`. -/
def copyList (f : Heap → Val → Option (Heap × Val)) : Heap → List Val → Option (Heap × List Val)
  | h, [] => some (h, [])
  | h, x :: xs =>
    match f h x with
    | none => none
    | some (h1, y) =>
      match copyList f h1 xs with
      | none => none
      | some (h2, ys) => some (h2, y :: ys)

/-- `semi_deepcopy` (Util/__init__.py 542-558), with the recursion depth left. -/
def copy : Nat → Heap → Val → Option (Heap × Val)
  | 0, _, _ => none
  | _ + 1, h, .atom a => some (h, .atom a)
  | n + 1, h, .ref l =>
    match h.obj l with
    | .other _ _ => some (h, .ref l)
    | .seq k xs =>
      match copyList (copy n) h xs with
      | none => none
      | some (h1, ys) => some (h1.alloc (.seq k ys), .ref h1.next)
    | .map k kvs =>
      match copyList (copy n) h (kvs.map Prod.snd) with
      | none => none
      | some (h1, ys) => some (h1.alloc (.map k ((kvs.map Prod.fst).zip ys)), .ref h1.next)

/-! ## Specification -/

/-- Containers found from a value, going only through containers. -/
inductive Reach (h : Heap) : Val → Nat → Prop
  | here {l} : (h.obj l).container = true → Reach h (.ref l) l
  | step {l v l'} : v ∈ (h.obj l).children → Reach h v l' → Reach h (.ref l) l'

/-- Every reference in use points to an object in use. -/
def Val.Valid (h : Heap) : Val → Prop
  | .atom _ => True
  | .ref l => l < h.next

def WF (h : Heap) : Prop := ∀ l, l < h.next → ∀ v ∈ (h.obj l).children, v.Valid h

/-- Equal contents down to depth `n`: equal atoms, containers of the same class with equal contents, and the very same object for objects of other kinds. -/
def Equal : Nat → Heap → Val → Heap → Val → Prop
  | 0, _, _, _, _ => True
  | _ + 1, _, .atom a, _, .atom b => a = b
  | n + 1, h, .ref l, h', .ref l' =>
    match h.obj l, h'.obj l' with
    | .other _ _, _ => l = l'
    | .seq k xs, .seq k' ys => k = k' ∧ List.Forall₂ (fun v w => Equal n h v h' w) xs ys
    | .map k kvs, .map k' kws => k = k' ∧ List.Forall₂ (fun p q => p.1 = q.1 ∧ Equal n h p.2 h' q.2) kvs kws
    | _, _ => False
  | _ + 1, _, _, _, _ => False

/-- One step of a program that holds some values and can reach others only through containers: look into a container it holds, make a new container out of what it holds, or change a container it holds
(append, insert, delete, assign an element, update, sort, ...: any new contents made of what it holds).  It never looks into, or changes, objects of other kinds. -/
inductive Act : Heap × Set Val → Heap × Set Val → Prop
  | look {h held l v} : Val.ref l ∈ held → v ∈ (h.obj l).children → Act (h, held) (h, held ∪ {v})
  | make {h held o} : o.container = true → (∀ v ∈ o.children, v ∈ held ∨ ∃ a, v = .atom a) → Act (h, held) (h.alloc o, held ∪ {.ref h.next})
  | change {h held l o} : Val.ref l ∈ held → (h.obj l).container = true → o.container = true →
      (∀ v ∈ o.children, v ∈ held ∨ v ∈ (h.obj l).children ∨ ∃ a, v = .atom a) →
      Act (h, held) ({ h with obj := fun l' => if l' = l then o else h.obj l' }, held)

/-- Any number of steps. -/
inductive Acts : Heap × Set Val → Heap × Set Val → Prop
  | refl (s) : Acts s s
  | tail {s t u} : Acts s t → Act t u → Acts s u

end Verif.Env.Clone
