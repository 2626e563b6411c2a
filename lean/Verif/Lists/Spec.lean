import Verif.Lists.Model

/-!
# Lists (C118): specification
-/

namespace Verif.Lists

variable {α : Type} [DecidableEq α]

/-- `m` has the elements of `l`, once each, in the order in which they come in `l` for the first time. -/
def Once (l m : List α) : Prop := (∀ x, x ∈ m ↔ x ∈ l) ∧ m.Pairwise fun x y => l.idxOf x < l.idxOf y

/-- `i`, counted from the start or, negative, from the end, is position `k` of `m`. -/
def Pos (m : List α) (i : Int) (k : Nat) : Prop := k < m.length ∧ (i = k ∨ i = (k : Int) - m.length)

/-- What the methods of a list without repetitions do: the list before, the call, the list afterwards, the result. -/
inductive Step (le : α → α → Bool) (m : List α) : Op α → List α → Out α → Prop
  | append (x m') : Once (m ++ [x]) m' → Step le m (.append x) m' .unit
  | extend (xs m') : Once (m ++ xs) m' → Step le m (.extend xs) m' .unit
  | iadd (xs m') : Once (m ++ xs) m' → Step le m (.iadd xs) m' .unit
  | imul (n) : n ≠ 0 → Step le m (.imul n) m .unit
  | imul0 : Step le m (.imul 0) [] .unit
  | reverse : Step le m .reverse m.reverse .unit
  | sort (m') : m'.Perm m → m'.Pairwise (fun x y => le x y = true) → Step le m .sort m' .unit
  | clear : Step le m .clear [] .unit
  | len : Step le m .len m (.nat m.length)
  | get (i k x) : Pos m i k → m[k]? = some x → Step le m (.get i) m (.elem x)
  | getErr (i) : (∀ k, ¬ Pos m i k) → Step le m (.get i) m .error
  | contains (x b) : (b = true ↔ x ∈ m) → Step le m (.contains x) m (.bool b)
  | count (x n) : n ≤ 1 → (n = 1 ↔ x ∈ m) → Step le m (.count x) m (.nat n)
  | index (x k) : m[k]? = some x → Step le m (.index x) m (.nat k)
  | indexErr (x) : x ∉ m → Step le m (.index x) m .error
  | list : Step le m .list m (.list m)
  | eq (xs b) : (b = true ↔ m = xs) → Step le m (.eq xs) m (.bool b)
  | insert (i : Int) (x pre post m') : m = pre ++ post → (0 ≤ i → (pre.length : Int) = min i m.length) → (i < 0 → (pre.length : Int) = max 0 (m.length + i)) → Once (pre ++ x :: post) m' → Step le m (.insert i x) m' .unit
  | set (i x pre y post m') : m = pre ++ y :: post → Pos m i pre.length → Once (pre ++ x :: post) m' → Step le m (.set i x) m' .unit
  | setErr (i x) : (∀ k, ¬ Pos m i k) → Step le m (.set i x) m .error
  | del (i pre y post) : m = pre ++ y :: post → Pos m i pre.length → Step le m (.del i) (pre ++ post) .unit
  | delErr (i) : (∀ k, ¬ Pos m i k) → Step le m (.del i) m .error
  | pop (i pre y post) : m = pre ++ y :: post → Pos m i pre.length → Step le m (.pop i) (pre ++ post) (.elem y)
  | popErr (i) : (∀ k, ¬ Pos m i k) → Step le m (.pop i) m .error
  | remove (x pre post) : m = pre ++ x :: post → Step le m (.remove x) (pre ++ post) .unit
  | removeErr (x) : x ∉ m → Step le m (.remove x) m .error
  | copy : Step le m .copy m (.list m)

/-- One call after the other. -/
inductive Steps (le : α → α → Bool) : List α → List (Op α) → List α → List (Out α) → Prop
  | nil (m) : Steps le m [] m []
  | cons (m o m' r os m'' rs) : Step le m o m' r → Steps le m' os m'' rs → Steps le m (o :: os) m'' (r :: rs)

/-- Calls that change the list at a position, or copy it. -/
def Op.raw : Op α → Bool
  | .insert .. | .set .. | .del .. | .pop .. | .remove .. | .copy => true
  | _ => false

/-- After `o`: was the list looked at since something was added? -/
def Op.looked (b : Bool) : Op α → Bool
  | .reverse | .sort | .len | .get .. | .count .. | .index .. | .list | .eq .. => true
  | .append .. | .extend .. | .iadd .. | .imul .. | .insert .. | .set .. => false
  | _ => b

/-- After something was added the list is looked at before it is changed at a position or copied. -/
def Careful (b : Bool) : List (Op α) → Prop
  | [] => True
  | o :: os => (o.raw = true → b = true) ∧ Careful (o.looked b) os

/-- Something that is not a sequence is at the place `p`, the numbers on the way to it. -/
inductive At : Obj → List Nat → Obj → Prop
  | str (s) : At (.str s) [] (.str s)
  | other (n) : At (.other n) [] (.other n)
  | seq (xs i x p y) : xs[i]? = some x → At x p y → At (.seq xs) (i :: p) y

/-- The order of places: as in a dictionary. -/
inductive Before : List Nat → List Nat → Prop
  | here (i j p q) : i < j → Before (i :: p) (j :: q)
  | deeper (i p q) : Before p q → Before (i :: p) (i :: q)

end Verif.Lists
