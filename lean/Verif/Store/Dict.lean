/-!
# Python dictionaries

Association lists in insertion order, as the observable behaviour of Python's `dict`: `d[k] = v` overwrites in place or appends, `del d[k]`
removes, `d.get(k)`.  Used by the models of `SCons/dblite.py` and `SCons/SConsign.py`.
-/

namespace Verif.Store

/-- A Python dictionary. -/
abbrev Dict (K V : Type) := List (K × V)

variable {K V : Type} [DecidableEq K]

/-- `d.get(k)`. -/
def Dict.get? (d : Dict K V) (k : K) : Option V :=
  match d with
  | [] => none
  | (k', v) :: d => if k' = k then some v else Dict.get? d k

/-- `d[k] = v`. -/
def Dict.set (d : Dict K V) (k : K) (v : V) : Dict K V :=
  match d with
  | [] => [(k, v)]
  | (k', v') :: d => if k' = k then (k, v) :: d else (k', v') :: Dict.set d k v

/-- `del d[k]` (the `KeyError` for a missing key leaves the dictionary alone). -/
def Dict.del (d : Dict K V) (k : K) : Dict K V := d.filter (fun p => decide (p.1 ≠ k))

@[simp] theorem Dict.get?_nil (k : K) : Dict.get? ([] : Dict K V) k = none := rfl

theorem Dict.get?_set (d : Dict K V) (k k' : K) (v : V) :
    Dict.get? (Dict.set d k v) k' = if k' = k then some v else Dict.get? d k' := by
  induction d with
  | nil => grind [Dict.get?, Dict.set]
  | cons p d ih => obtain ⟨a, b⟩ := p; grind [Dict.get?, Dict.set]

theorem Dict.get?_del (d : Dict K V) (k k' : K) :
    Dict.get? (Dict.del d k) k' = if k' = k then none else Dict.get? d k' := by
  induction d with
  | nil => grind [Dict.get?, Dict.del]
  | cons p d ih => obtain ⟨a, b⟩ := p; simp only [Dict.del, List.filter_cons] at *; grind [Dict.get?]

end Verif.Store
