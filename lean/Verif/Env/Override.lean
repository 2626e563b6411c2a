import Mathlib.Data.List.Basic
import Mathlib.Data.List.Nodup

/-!
# Construction variables of environments and of override environments (C49)

Models `SubstitutionEnvironment`'s dictionary methods (SCons/Environment.py 620-686), `Base._update` / `_update_onlynew` /
`Replace` / `SetDefault` (1578-1595, 2265-2283, 2313-2322), `Override` (961-1003) and `OverrideEnvironment` (3013-3239).

Environments are objects with identity (a number, in order of creation); an override environment holds a *reference* to its
subject, so a later write to the subject is seen through it.

Simplifications: a value is an abstract immutable value (what happens to mutable values is the subject of `Verif.Env.Clone`);
`BUILDERS` and `SCANNERS`, whose assignment has hooks, are not used as names; `Override`'s substitution of `$NAME`
in the override values (`scons_subst_once`) and its `parse_flags` argument are left out (the values here are those after substitution);
dictionaries are functions (their order is not modelled).
-/

namespace Verif.Env.Override
variable {κ ν : Type} [DecidableEq κ]

/-- An environment object: a base environment with its `_dict` (Environment.py 584-593), or an override environment with
`__subject`, `overrides` and `__deleted` (Environment.py 3055-3061). -/
inductive Obj (κ ν : Type) where
  | base (dict : κ → Option ν)
  | over (subject : Nat) (overrides : κ → Option ν) (deleted : List κ)

/-- All environments of a program; those with number `≥ next` do not exist yet. -/
structure World (κ ν : Type) where
  next : Nat
  env : Nat → Obj κ ν

/-- `dict.update(kw)`. -/
def update (d : κ → Option ν) : List (κ × ν) → κ → Option ν
  | [] => d
  | (k, v) :: kw => update (fun k' => if k' = k then some v else d k') kw

/-- `env[key]` (Environment.py 645, 3088-3099), `none` for a KeyError; also `env.get(key)` with no default
(664-666, 3135-3146) and `key in env` (668, 3148-3158), which have the same case analysis.  The test `s < i` always succeeds: a subject exists
before its override is made. -/
def getitem (w : World κ ν) (i : Nat) (k : κ) : Option ν :=
  match w.env i with
  | .base d => d k
  | .over s ov del =>
    match ov k with
    | some v => some v
    | none => if k ∈ del then none else if s < i then getitem w s k else none
termination_by i

/-- `env.Dictionary()`, `env.keys()`, `env.items()` (Environment.py 671-681, 3162-3197): the value listed for `k`, if it is listed.
`d.update(subject)` takes the subject's `keys()` and indexes the subject with each of them. -/
def listed (w : World κ ν) (i : Nat) (k : κ) : Option ν :=
  match w.env i with
  | .base d => d k
  | .over s ov del =>
    if k ∈ del then none
    else match ov k with
      | some v => some v
      | none => if s < i then (if (listed w s k).isSome then getitem w s k else none) else none
termination_by i

/-- `env.gvars()` (Environment.py 752-754, 3223-3225). -/
def gvars (w : World κ ν) (i : Nat) (k : κ) : Option ν :=
  match w.env i with
  | .base d => d k
  | .over s _ _ => if s < i then gvars w s k else none
termination_by i

/-- `env.lvars()` (Environment.py 756-758, 3227-3231). -/
def lvars (w : World κ ν) (i : Nat) (k : κ) : Option ν :=
  match w.env i with
  | .base _ => none
  | .over s ov _ =>
    match ov k with
    | some v => some v
    | none => if s < i then lvars w s k else none
termination_by i

/-- The value `env.subst('$k')` starts from: `lvars` first, then `gvars` (SCons/Subst.py, `expand`: `key in lvars`, then `key in gvars`). -/
def substLookup (w : World κ ν) (i : Nat) (k : κ) : Option ν := (lvars w i k).or (gvars w i k)

/-- What the program may do with its environments.  `i` is the environment the method is called on. -/
inductive Op (κ ν : Type) where
  | newBase (d : κ → Option ν)             -- Environment(...)
  | override (i : Nat) (kw : List (κ × ν)) -- i.Override(kw), as done by a builder call with keyword arguments
  | set (i : Nat) (k : κ) (v : ν)          -- i[k] = v
  | del (i : Nat) (k : κ)                  -- del i[k]
  | setdefault (i : Nat) (k : κ) (v : ν)   -- i.setdefault(k, v)
  | replace (i : Nat) (kw : List (κ × ν))  -- i.Replace(**kw)
  | SetDefault (i : Nat) (kw : List (κ × ν)) -- i.SetDefault(**kw)

inductive Res where
  | ok | keyError | userError
deriving DecidableEq

/-- Which names are reserved (Environment.py 110-121: TARGET, SOURCES, ...) and which are identifiers. -/
structure Names (κ : Type) where
  reserved : κ → Bool
  identifier : κ → Bool

def World.put (w : World κ ν) (i : Nat) (o : Obj κ ν) : World κ ν :=
  { w with env := fun j => if j = i then o else w.env j }

/-- `copy_non_reserved_keywords` (Environment.py 158-166). -/
def nonReserved (N : Names κ) (kw : List (κ × ν)) : List (κ × ν) := kw.filter (fun p => !N.reserved p.1)

/-- `Replace` on an object (Environment.py 2265-2283 and `_update` 1578-1583; 3235-3238). -/
def replaceObj (N : Names κ) (kw : List (κ × ν)) : Obj κ ν → Obj κ ν
  | .base d => .base (update d (nonReserved N kw))
  | .over s ov del => .over s (update ov (nonReserved N kw)) del

def step (N : Names κ) (w : World κ ν) : Op κ ν → World κ ν × Res
  | .newBase d => ({ next := w.next + 1, env := (w.put w.next (.base d)).env }, .ok)
  | .override i kw =>
    -- Environment.py 985-1000
    if nonReserved N kw = [] then (w, .ok)
    else ({ next := w.next + 1, env := (w.put w.next (.over i (update (fun _ => none) (nonReserved N kw)) [])).env }, .ok)
  | .set i k v =>
    match w.env i with
    | .base d =>
      -- Environment.py 647-662, `_set_reserved` 168-171
      if N.reserved k then (w, .ok)
      else if (d k).isNone && !N.identifier k then (w, .userError)
      else (w.put i (.base (update d [(k, v)])), .ok)
    | .over s ov del =>
      -- Environment.py 3101-3111; `list.remove` takes out the first occurrence only
      if !N.identifier k then (w, .userError)
      else (w.put i (.over s (update ov [(k, v)]) (del.erase k)), .ok)
  | .del i k =>
    match w.env i with
    | .base d =>
      -- Environment.py 638-643
      if (d k).isNone then (w, .keyError) else (w.put i (.base (fun k' => if k' = k then none else d k')), .ok)
    | .over s ov del =>
      -- Environment.py 3113-3133
      if (ov k).isNone && (getitem w s k).isNone then (w, .keyError)
      else (w.put i (.over s (fun k' => if k' = k then none else ov k') (del ++ [k])), .ok)
  | .setdefault i k v =>
    -- Environment.py 683-685, 3199-3205
    match getitem w i k with
    | some _ => (w, .ok)
    | none =>
      match w.env i with
      | .base d => (w.put i (.base (update d [(k, v)])), .ok)
      | .over s ov del => (w.put i (.over s (update ov [(k, v)]) del), .ok)
  | .replace i kw => (w.put i (replaceObj N kw (w.env i)), .ok)
  | .SetDefault i kw =>
    -- Environment.py 2313-2322
    (w.put i (replaceObj N (kw.filter (fun p => (getitem w i p.1).isNone)) (w.env i)), .ok)

def run (N : Names κ) (w : World κ ν) (ops : List (Op κ ν)) : World κ ν := ops.foldl (fun w o => (step N w o).1) w

/-- Every subject exists before its override; environments not yet created look like an empty base. -/
structure WF (w : World κ ν) : Prop where
  older : ∀ i s ov del, w.env i = .over s ov del → s < i
  fresh : ∀ i, w.next ≤ i → w.env i = .base (fun _ => none)

/-- An operation names only environments that exist. -/
def Op.Exists (w : World κ ν) : Op κ ν → Prop
  | .newBase _ => True
  | .override i _ | .set i _ _ | .del i _ | .setdefault i _ _ | .replace i _ | .SetDefault i _ => i < w.next

/-- A program: each operation is about an environment that exists when it runs. -/
inductive Runs (N : Names κ) : World κ ν → List (Op κ ν) → World κ ν → Prop
  | nil (w) : Runs N w [] w
  | cons {w op ops w'} : op.Exists w → Runs N (step N w op).1 ops w' → Runs N w (op :: ops) w'

def World.empty : World κ ν := ⟨0, fun _ => .base (fun _ => none)⟩

/-- The environment an operation writes to. -/
def Op.target? : Op κ ν → Option Nat
  | .newBase _ | .override _ _ => none
  | .set i _ _ | .del i _ | .setdefault i _ _ | .replace i _ | .SetDefault i _ => some i

/-- The operation is a write through environment `i` that names variable `k`. -/
def Op.Touches (i : Nat) (k : κ) : Op κ ν → Prop
  | .newBase _ | .override _ _ => False
  | .set j k' _ | .del j k' | .setdefault j k' _ => j = i ∧ k' = k
  | .replace j kw | .SetDefault j kw => j = i ∧ ∃ v, (k, v) ∈ kw

/-- The environment itself, its subject, the subject's subject, ... -/
inductive Chain (w : World κ ν) : Nat → Nat → Prop
  | refl (i) : Chain w i i
  | step {i s ov del j} : w.env i = .over s ov del → Chain w s j → Chain w i j

end Verif.Env.Override
