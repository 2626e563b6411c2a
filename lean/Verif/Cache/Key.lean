/-!
# Model of the cache key: `File.get_cachedir_bsig` (`FS.py:3692-3721`) and `hash_collect` (`Util/hashes.py:345-360`)

Strings are lists of characters.  `H` is `hash_signature`.
-/

namespace Verif.Cache.Key

abbrev Str := List Char

/-- `', '.join(l)`. -/
def joinComma : List Str → Str
  | [] => []
  | [s] => s
  | s :: t :: l => s ++ [',', ' '] ++ joinComma (t :: l)

/-- `hash_collect`, `Util/hashes.py:357-360`. -/
def hashCollect (H : Str → Str) (sigs : List Str) : Str :=
  match sigs with
  | [s] => s
  | _ => H (joinComma sigs)

/-- `get_cachedir_bsig`, `FS.py:3710-3721`: the children's content signatures, the signature of the action, the path. -/
def cacheKey (H : Str → Str) (children : List Str) (action : Str) (path : Str) : Str :=
  hashCollect H (children ++ [action] ++ [path])

/-- `Executor.get_contents` (`Executor.py:440-450`) and `ListAction.get_contents` (`Action.py`): the contents of the actions are joined with nothing in between. -/
def actionContents (actions : List Str) : Str := actions.flatten

/-- A content signature of a file: a fixed number of hexadecimal digits. -/
def IsSig (L : Nat) (s : Str) : Prop := s.length = L ∧ ∀ c ∈ s, c ∈ "0123456789abcdef".toList

/-- A path that does not itself start like a list of signatures. -/
def PathOK (L : Nat) (p : Str) : Prop := ∀ s rest, IsSig L s → p ≠ s ++ [',', ' '] ++ rest

theorem joinComma_cons (s : Str) (l : List Str) (h : l ≠ []) : joinComma (s :: l) = s ++ [',', ' '] ++ joinComma l := by
  cases l with
  | nil => exact absurd rfl h
  | cons t l => rfl

theorem joinComma_inj {L : Nat} {xs ys : List Str} {p q : Str} (hx : ∀ s ∈ xs, IsSig L s) (hy : ∀ s ∈ ys, IsSig L s)
    (hp : PathOK L p) (hq : PathOK L q) (h : joinComma (xs ++ [p]) = joinComma (ys ++ [q])) : xs = ys ∧ p = q := by
  induction xs generalizing ys with
  | nil =>
    cases ys with
    | nil => exact ⟨rfl, h⟩
    | cons y ys =>
      rw [List.cons_append, joinComma_cons _ _ (by simp)] at h
      exact absurd h (hp y _ (hy y (by simp)))
  | cons x xs ih =>
    cases ys with
    | nil =>
      rw [List.cons_append, joinComma_cons _ _ (by simp)] at h
      exact absurd h.symm (hq x _ (hx x (by simp)))
    | cons y ys =>
      rw [List.cons_append, List.cons_append, joinComma_cons _ _ (by simp), joinComma_cons _ _ (by simp)] at h
      have hl : (x ++ [',', ' ']).length = (y ++ [',', ' ']).length := by
        simp [(hx x (by simp)).1, (hy y (by simp)).1]
      obtain ⟨h1, h2⟩ := List.append_inj h hl
      obtain ⟨h3, -⟩ := List.append_inj' h1 rfl
      obtain ⟨h4, h5⟩ := ih (fun s hs => hx s (by simp [hs])) (fun s hs => hy s (by simp [hs])) h2
      exact ⟨by rw [h3, h4], h5⟩

/-- FOUND: the signature of a `Value` node is the text of the value (`Node/Python.py:172-186`), so `Value("a, b")` and the two values `Value("a")`, `Value("b")` as
sources of the same target with the same (function) action give the same cache key, whatever the hash: a wrong file is retrieved. -/
theorem C27_counterexample_values (H : Str → Str) (a p : Str) :
    cacheKey H ["a, b".toList] a p = cacheKey H ["a".toList, "b".toList] a p := rfl

/-- FOUND: the signature of a list of actions does not depend on where one command ends and the next begins. -/
theorem C27_counterexample_action_boundaries (H : Str → Str) :
    H (actionContents ["rm a".toList, "b".toList]) = H (actionContents ["rm ".toList, "ab".toList]) ∧
    ["rm a".toList, "b".toList] ≠ ["rm ".toList, "ab".toList] := by
  constructor
  · rfl
  · decide

/-- Non-vacuity: keys of length 2, a path with a comma in it. -/
example : IsSig 2 "0a".toList ∧ IsSig 2 "ff".toList ∧ PathOK 2 "out, put/x".toList := by
  refine ⟨⟨rfl, by decide⟩, ⟨rfl, by decide⟩, ?_⟩
  rintro s rest ⟨hl, hs⟩ h
  match s, hl with
  | [x, y], _ => simp at h

end Verif.Cache.Key
