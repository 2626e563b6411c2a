import Mathlib.Data.List.Basic
import Mathlib.Logic.Function.Basic

/-!
# C77: batch builds

An action with a `batch_key` is executed once for the targets of several builder calls: the calls with the same key share one `Executor`, each adds a *batch*, its targets and its sources,
and the command refers to the sources that need work as `$CHANGED_SOURCES`.  Modelled: `SCons/Builder.py` 588-626 (which executor a call uses), `SCons/Executor.py` 177-205
(`_get_changes`), 207-222 (`_get_changed_sources`), 267-274 (`get_action_targets`), 287-303 (`get_all_targets`, `get_all_sources`), 405-412 (`add_batch`), 440-463 (`get_contents`), 481-501
(`scan`: what is found in any source is a dependency of all targets), 507-541 (`get_unignored_sources`), 562-571 (`GetBatchExecutor`, `AddBatchExecutor`); `SCons/Taskmaster/__init__.py`
160-214 (`Task.prepare`), 216-262 (`Task.execute`), 281-310 (`executed_with_callbacks`), 387-431 (`make_ready_current`); `SCons/Node/FS.py` 3145-3176 (`_rmv_existing`, `prepare`),
2990-3029 (`push_to_cache`, `retrieve_from_cache`), 3312-3332 and 3553-3585 (`changed`, `is_up_to_date`), 3692-3721 (`get_cachedir_bsig`); `SCons/Tool/msvc.py` 165-198, 227-240
(`msvc_batch_key`, `msvc_output_flag`, the actions with `targets='$CHANGED_TARGETS'`).

Simplifications: the content decider, no repositories; an action writes all targets of the batches it is given or, if it fails, none; no side effects; signatures of contents and of actions
are values of an abstract type; a cache key is the tuple of what is hashed into it; all targets are derived files (not aliases).
-/

namespace Verif.Batch

/-- `Batch(targets, sources)`. -/
structure Batch (V : Type) where
  targets : List V
  sources : List V
  deriving DecidableEq

/-! ## Which executor a builder call uses -/

/-- One call of a builder with a batch action: what `batch_key` returns (`none` for a false value), and the batch. -/
abbrev Call (K V : Type) := Option K × Batch V

/-- The executors: with the key they are registered under (`_batch_executors`), and their batches. -/
abbrev Execs (K V : Type) := List (Option K × List (Batch V))

variable {K V : Type} [DecidableEq K] [DecidableEq V]

/-- One call (Builder.py 600-614): without a key, a new executor; with a key, the registered one gets another batch, or a new one is registered. -/
def addCall (xs : Execs K V) (c : Call K V) : Execs K V :=
  match c.1 with
  | none => xs ++ [(none, [c.2])]
  | some k => if (xs.any fun x => decide (x.1 = some k)) = true then xs.map fun x => if x.1 = some k then (x.1, x.2 ++ [c.2]) else x else xs ++ [(some k, [c.2])]

/-- The calls of the `SConstruct`, in order. -/
def executors (cs : List (Call K V)) : Execs K V := cs.foldl addCall []

/-! ## One task -/

/-- Which targets the action says it makes (the `targets=` argument of `Action`): `$TARGETS`, the default, or `$CHANGED_TARGETS`. -/
inductive Mode
  | targets
  | changed
  deriving DecidableEq

/-- What the command is given: `$CHANGED_SOURCES` or `$SOURCES`. -/
inductive Use
  | changed
  | all
  deriving DecidableEq

/-- An executor and what is known of its targets.  `shared` are the implicit dependencies: those found by scanning any source of any batch, dependencies of every target. -/
structure Exec (V A : Type) where
  batches : List (Batch V)
  shared : List V
  act : A
  mode : Mode
  use : Use
  precious : V → Bool
  always : V → Bool
  nocache : V → Bool

/-- What is recorded of a target: the signatures of the dependencies, and of the action. -/
structure Rec (S : Type) where
  sigs : List S
  act : S
  deriving DecidableEq

/-- A key of the cache: what is hashed into `get_cachedir_bsig()`. -/
abbrev Key (V S : Type) := List S × S × V

/-- Files, `.sconsign`, and the cache. -/
structure World (V C S : Type) where
  fs : V → Option C
  db : V → Option (Rec S)
  cache : Key V S → Option C

/-- The outside: what the tool makes of a target's dependencies when it is given the batch of this target (`make`); whether it succeeds (`ok`), which may depend on everything it is given;
the signatures of contents (`none` for a missing file) and of the action with all targets and all sources (`Executor.get_contents`); whether there is a cache. -/
structure Tools (V C A S : Type) where
  make : A → V → List (Option C) → C
  ok : A → List V → (V → Option C) → Bool
  h : Option C → S
  hA : A → List V → List V → S
  cached : Bool

variable {C A S : Type} [DecidableEq S]

/-- `get_all_targets()` (Executor.py 287-292). -/
def Exec.allTargets (E : Exec V A) : List V := E.batches.flatMap (·.targets)

/-- `get_all_sources()` (Executor.py 294-299). -/
def Exec.allSources (E : Exec V A) : List V := E.batches.flatMap (·.sources)

/-- The sources of a target (`get_unignored_sources`, Executor.py 520-528): of the first batch it is in. -/
def Exec.sourcesOf (E : Exec V A) (t : V) : List V :=
  match E.batches.find? fun b => decide (t ∈ b.targets) with
  | some b => b.sources
  | none => []

/-- The dependencies of a target. -/
def Exec.deps (E : Exec V A) (t : V) : List V := E.sourcesOf t ++ E.shared

/-- The signature of the action (Executor.py 440-463). -/
def Exec.actSig (X : Tools V C A S) (E : Exec V A) : S := X.hA E.act E.allTargets E.allSources

/-- The record `get_binfo()` makes now. -/
def recOf (X : Tools V C A S) (E : Exec V A) (fs : V → Option C) (t : V) : Rec S := ⟨(E.deps t).map fun d => X.h (fs d), E.actSig X⟩

/-- `always_build` or not `is_up_to_date()`: the target is there and its record is the present one (FS.py 3553-3585, Node/__init__.py 1471-1532); `there` is what `exists()` says. -/
def stale (X : Tools V C A S) (E : Exec V A) (W : World V C S) (there : Bool) (t : V) : Bool :=
  E.always t || !(there && decide (W.db t = some (recOf X E W.fs t)))

/-- Is one of the targets out of date (`make_ready_current`, Taskmaster/__init__.py 400-413)? -/
def needed (X : Tools V C A S) (E : Exec V A) (W : World V C S) : Bool := E.allTargets.any fun t => stale X E W (W.fs t).isSome t

/-- `_get_changes` (Executor.py 190-201): the batches whose *first* target is out of date. -/
def changes (X : Tools V C A S) (E : Exec V A) (W : World V C S) (there : V → Bool) : List (Batch V) :=
  E.batches.filter fun b => match b.targets with
    | [] => true
    | t :: _ => stale X E W (there t) t

/-- `prepare()` of the targets of `ts` (FS.py 3161-3176): those that are there and not precious are removed. -/
def remove (E : Exec V A) (ts : List V) (fs : V → Option C) : V → Option C := fun v => if v ∈ ts ∧ ¬ E.precious v then none else fs v

/-- The key of a target in the cache (FS.py 3692-3721). -/
def key (X : Tools V C A S) (E : Exec V A) (fs : V → Option C) (t : V) : Key V S := ((E.deps t).map fun d => X.h (fs d), E.actSig X, t)

/-- `retrieve_from_cache()`: what the cache has for the target. -/
def cachedFor (X : Tools V C A S) (E : Exec V A) (W : World V C S) (t : V) : Option C :=
  if X.cached ∧ ¬ E.nocache t then W.cache (key X E W.fs t) else none

/-- The targets retrieved before the first that is not in the cache (Taskmaster/__init__.py 229-233). -/
def retrieved (X : Tools V C A S) (E : Exec V A) (W : World V C S) : List V := E.allTargets.takeWhile fun t => (cachedFor X E W t).isSome

/-- `push_to_cache()` of all targets (Taskmaster/__init__.py 247-248, CacheDir.py 87-110): what is in the cache stays. -/
def push (X : Tools V C A S) (E : Exec V A) (fs0 fs : V → Option C) (cache : Key V S → Option C) : Key V S → Option C := fun k =>
  match cache k with
  | some c => some c
  | none => if X.cached ∧ k.2.2 ∈ E.allTargets ∧ ¬ E.nocache k.2.2 ∧ k = key X E fs0 k.2.2 then fs k.2.2 else none

/-- The action writes the targets of the batches it is given. -/
def writeAll (X : Tools V C A S) (E : Exec V A) (bs : List (Batch V)) (fs0 fs : V → Option C) : V → Option C := fun v =>
  if v ∈ bs.flatMap (·.targets) then some (X.make E.act v ((E.deps v).map fs0)) else fs v

/-- The records of all targets are stored (`built()`, `visited()`). -/
def store (X : Tools V C A S) (E : Exec V A) (fs0 : V → Option C) (db : V → Option (Rec S)) : V → Option (Rec S) := fun v =>
  if v ∈ E.allTargets then some (recOf X E fs0 v) else db v

/-- What a task did. -/
inductive Did (V : Type)
  /-- all targets are up to date -/
  | current
  /-- all targets were in the cache -/
  | fromCache
  /-- the action was executed, with these sources -/
  | ran (given : List V)
  /-- the action was executed with these sources, and failed -/
  | failed (given : List V)
  deriving DecidableEq

/-- One task.  In mode `$CHANGED_TARGETS` the changed batches are computed in `Task.prepare` before anything is removed (`get_action_targets`), and remembered; in mode `$TARGETS` they are
computed when the command line is made, after the targets were removed; `exists()` is as remembered since `prepare`, whatever has been retrieved and unlinked since. -/
def runTask (X : Tools V C A S) (E : Exec V A) (W : World V C S) : World V C S × Did V :=
  if needed X E W = false then ({ W with db := store X E W.fs W.db }, .current)
  else
    let early := changes X E W fun v => (W.fs v).isSome
    let fs1 := remove E (match E.mode with
      | .changed => early.flatMap (·.targets)
      | .targets => E.allTargets) W.fs
    let got := retrieved X E W
    if got = E.allTargets then
      ({ W with fs := fun v => if v ∈ got then cachedFor X E W v else fs1 v, db := store X E W.fs W.db }, .fromCache)
    else
      let fs2 := fun v => if v ∈ got then none else fs1 v
      let chg := match E.mode with
        | .changed => early
        | .targets => changes X E W fun v => (fs1 v).isSome
      let bs := match E.use with
        | .changed => chg
        | .all => E.batches
      let given := bs.flatMap (·.sources)
      if X.ok E.act given W.fs = false then ({ W with fs := fs2 }, .failed given)
      else
        let fs3 := writeAll X E bs W.fs fs2
        ({ fs := fs3, db := store X E W.fs W.db, cache := push X E W.fs fs3 W.cache }, .ran given)

/-! ## The key of the Microsoft compiler -/

/-- Directory, base name and suffix of a file (`os.path.splitext`). -/
structure Path where
  dir : List Char
  base : List Char
  ext : List Char
  deriving DecidableEq

/-- `msvc_batch_key` with `$MSVC_BATCH` set (msvc.py 186-198); the identities of action and environment are fixed. -/
def msvcKey (t s : Path) : Option (List Char × List Char) := if t.base = s.base then some (t.dir, s.dir) else none

/-- Where the compiler puts the object file of a source when it is told only the directory (`/Fo${TARGET.dir}\\`, msvc.py 224-225). -/
def msvcOutput (outdir : List Char) (s : Path) : Path := ⟨outdir, s.base, ".obj".toList⟩

end Verif.Batch
