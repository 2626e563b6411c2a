import Mathlib.Logic.Function.Basic

/-!
# C110: builds that share a cache directory

Any number of working trees, each with a build running in it or not, and one cache directory.  The builds run at the same time, each with any number of jobs, and their single steps are
interleaved in any order.  Modelled: `SCons/Taskmaster/__init__.py` 217-265 (`Task.execute`), 281-310 (`executed_with_callbacks`), 387-431 (`make_ready_current`);
`SCons/CacheDir.py` 49-75 (`CacheRetrieveFunc`), 92-140 (`CachePushFunc`), 334-352 (`cachepath`), 354-408 (`retrieve`, `push`, `push_if_forced`);
`SCons/Node/FS.py` 3001-3029 (`push_to_cache`, `retrieve_from_cache`), 3031-3052 (`visited`), 3161-3176 (`prepare`), 3692-3719 (`get_cachedir_bsig`), 3553-3560 (`is_up_to_date`);
`SCons/SConsign.py` (`write` at the end of the run).

Simplifications: files are numbered, a number standing for the same path in each tree; the content decider without `--max-drift`; a push makes the whole file visible at once (C26);
an action that fails leaves no target; targets are not precious; no `-n`; no repositories (C76), no variant directories, no side effects; the directory and its configuration are there (C101).
-/

namespace Verif.CacheSys

/-- Files. -/
abbrev Node := Nat

/-- What is recorded of a build (Node/__init__.py 1174-1223, `get_binfo`): the dependencies with their signatures, and the signature of the action. -/
structure Rec (S : Type) where
  deps : List (Node × S)
  act : S
  deriving DecidableEq

/-- The outside: what actions make of the dependencies (names and contents; `none` for a missing file), for each target the content or that it is not made; the signatures of contents and of
actions; the name of a cache file, a hash of the signatures of the dependencies, that of the action and the path of the target. -/
structure Tools (C A S K : Type) where
  exec : A → List (Node × Option C) → Option (Node → Option C)
  h : Option C → S
  hA : A → S
  key : List S → S → Node → K

/-- What an `SConstruct` declares: the tasks with their targets, dependencies (which may depend on contents: scanners) and actions, and `NoCache`. -/
structure Project (C A : Type) where
  targets : Nat → List Node
  deps : Nat → (Node → Option C) → List Node
  act : Nat → A
  nocache : Node → Bool

/-- `CacheDir(...)` without `--cache-disable`; `--cache-readonly`; `--cache-force`. -/
structure Flags where
  enabled : Bool
  readonly : Bool
  force : Bool

/-- Where a task is: asking the cache for the targets (those still to be asked for, those retrieved), about to execute the action, pushing targets to the cache (those still to be pushed). -/
inductive Phase where
  | fetch (rest got : List Node)
  | build
  | push (rest : List Node)

/-- A task at work, with its new record. -/
structure Job (S : Type) where
  r : Rec S
  ph : Phase

/-- A running build: the signatures in memory, the tasks done and the tasks whose actions were executed (the last one first), the tasks at work. -/
structure Session (C A S : Type) where
  P : Project C A
  fl : Flags
  mem : Node → Option (Rec S)
  done : List Nat
  exed : List Nat
  jobs : Nat → Option (Job S)

/-- A working tree: its files, its `.sconsign`, the build that runs in it.  `clean` is not part of the program: no build was killed here and no recorded target was edited by hand. -/
structure Tree (C A S : Type) where
  files : Node → Option C
  db : Node → Option (Rec S)
  clean : Bool
  sess : Option (Session C A S)

/-- All trees and the cache directory. -/
structure Sys (C A S K : Type) where
  tree : Nat → Tree C A S
  cache : K → Option C

/-- What happens: somebody edits or deletes a file of tree `i`; a build starts; a task starts; a task does its next step; a build ends; a build is killed; somebody removes a file of the
cache. -/
inductive Cmd (C A K : Type) where
  | edit (i : Nat) (n : Node) (c : Option C)
  | start (i : Nat) (P : Project C A) (fl : Flags)
  | begin (i g : Nat)
  | advance (i g : Nat)
  | finish (i : Nat)
  | kill (i : Nat)
  | drop (k : K)

variable {C A S K : Type} [DecidableEq S] [DecidableEq K]

/-- The record `get_binfo()` makes now (Node/__init__.py 1174-1223). -/
def recOf (X : Tools C A S K) (P : Project C A) (files : Node → Option C) (g : Nat) : Rec S := ⟨(P.deps g files).map fun k => (k, X.h (files k)), X.hA (P.act g)⟩

/-- The cache file of a target (FS.py 3692-3719): the names of the dependencies are not in it. -/
def keyOf (X : Tools C A S K) (r : Rec S) (n : Node) : K := X.key (r.deps.map (·.2)) r.act n

/-- Remove files. -/
def without (files : Node → Option C) (ns : List Node) : Node → Option C := fun n => if n ∈ ns then none else files n

/-- What is pushed in any case with `--cache-force` (`visited`, FS.py 3031-3033). -/
def forced (fl : Flags) (ns : List Node) : List Node := if fl.force then ns else []

/-- A task starts: `make_ready_current` (Taskmaster/__init__.py 387-431, FS.py 3553-3560) asks whether all targets are there and recorded as they would be recorded now; if not, `prepare` (FS.py
3161-3176) removes them. -/
def beginTask (X : Tools C A S K) (g : Nat) (files : Node → Option C) (σ : Session C A S) : (Node → Option C) × Session C A S :=
  let r := recOf X σ.P files g
  if ∀ n ∈ σ.P.targets g, (files n).isSome ∧ σ.mem n = some r then (files, { σ with jobs := Function.update σ.jobs g (some ⟨r, .push (forced σ.fl (σ.P.targets g))⟩) })
  else (without files (σ.P.targets g), { σ with jobs := Function.update σ.jobs g (some ⟨r, .fetch (σ.P.targets g) []⟩) })

/-- `retrieve_from_cache` (FS.py 3016-3029, CacheDir.py 354-396): what is found. -/
def lookup (X : Tools C A S K) (σ : Session C A S) (r : Rec S) (cache : K → Option C) (n : Node) : Option C :=
  if σ.fl.enabled ∧ ¬ σ.P.nocache n then cache (keyOf X r n) else none

/-- `push_to_cache`, `push_if_forced` (FS.py 3001-3014, CacheDir.py 92-140, 398-408): a file already there is not replaced. -/
def pushOne (X : Tools C A S K) (σ : Session C A S) (r : Rec S) (files : Node → Option C) (cache : K → Option C) (n : Node) : K → Option C :=
  if σ.fl.enabled ∧ ¬ σ.fl.readonly ∧ ¬ σ.P.nocache n ∧ cache (keyOf X r n) = none then Function.update cache (keyOf X r n) (files n) else cache

/-- The next step of a task: `Task.execute` (Taskmaster/__init__.py 228-251), then `executed_with_callbacks` (281-310). -/
def advanceTask (X : Tools C A S K) (g : Nat) (j : Job S) (files : Node → Option C) (σ : Session C A S) (cache : K → Option C) : (Node → Option C) × Session C A S × (K → Option C) :=
  match j.ph with
  | .fetch (n :: rest) got => match lookup X σ j.r cache n with
    | some c => (Function.update files n (some c), { σ with jobs := Function.update σ.jobs g (some ⟨j.r, .fetch rest (n :: got)⟩) }, cache)
    | none => (without files got, { σ with jobs := Function.update σ.jobs g (some ⟨j.r, .build⟩) }, cache)
  | .fetch [] _ => (files, { σ with jobs := Function.update σ.jobs g (some ⟨j.r, .push (forced σ.fl (σ.P.targets g))⟩) }, cache)
  | .build => match X.exec (σ.P.act g) (j.r.deps.map fun d => (d.1, files d.1)) with
    | none => (files, { σ with exed := g :: σ.exed, jobs := Function.update σ.jobs g none }, cache)
    | some f => (fun n => if n ∈ σ.P.targets g then f n else files n,
        { σ with exed := g :: σ.exed, jobs := Function.update σ.jobs g (some ⟨j.r, .push (σ.P.targets g ++ forced σ.fl (σ.P.targets g))⟩) }, cache)
  | .push (n :: rest) => (files, { σ with jobs := Function.update σ.jobs g (some ⟨j.r, .push rest⟩) }, pushOne X σ j.r files cache n)
  | .push [] => (files, { σ with mem := fun n => if n ∈ σ.P.targets g then some j.r else σ.mem n, done := g :: σ.done, jobs := Function.update σ.jobs g none }, cache)

/-- Change one tree. -/
def Sys.put (s : Sys C A S K) (i : Nat) (T : Tree C A S) : Sys C A S K := { s with tree := Function.update s.tree i T }

/-- What happens does to the system. -/
def step (X : Tools C A S K) (s : Sys C A S K) : Cmd C A K → Sys C A S K
  | .edit i n c => s.put i { s.tree i with files := Function.update (s.tree i).files n c, clean := (s.tree i).clean && (c.isNone || ((s.tree i).db n).isNone) }
  | .start i P fl => s.put i { s.tree i with sess := some ⟨P, fl, (s.tree i).db, [], [], fun _ => none⟩ }
  | .begin i g => match (s.tree i).sess with
    | none => s
    | some σ => s.put i { s.tree i with files := (beginTask X g (s.tree i).files σ).1, sess := some (beginTask X g (s.tree i).files σ).2 }
  | .advance i g => match (s.tree i).sess with
    | none => s
    | some σ => match σ.jobs g with
      | none => s
      | some j =>
        let q := advanceTask X g j (s.tree i).files σ s.cache
        { s.put i { s.tree i with files := q.1, sess := some q.2.1 } with cache := q.2.2 }
  | .finish i => match (s.tree i).sess with
    | none => s
    | some σ => s.put i { s.tree i with db := σ.mem, sess := none }
  | .kill i => s.put i { s.tree i with clean := false, sess := none }
  | .drop k => { s with cache := Function.update s.cache k none }

/-- No file is the target of two tasks, and what the scanners find depends only on the sources and on what they find. -/
structure WellFormed (P : Project C A) : Prop where
  one : ∀ n g g', n ∈ P.targets g → n ∈ P.targets g' → g = g'
  scan : ∀ g (v v' : Node → Option C), (∀ n, (∀ g', n ∉ P.targets g') → v n = v' n) → (∀ k ∈ P.deps g v, v k = v' k) → P.deps g v' = P.deps g v

/-- All dependencies that are built are built. -/
def Ready (P : Project C A) (files : Node → Option C) (done : List Nat) (g : Nat) : Prop := ∀ k ∈ P.deps g files, ∀ g', k ∈ P.targets g' → g' ∈ done

/-- When what can happen: files are not edited during a build, a tree has one build at a time, dependencies are built first (C01), each task once, a build ends when no task is at work. -/
def Allowed (s : Sys C A S K) : Cmd C A K → Prop
  | .edit i _ _ => (s.tree i).sess = none
  | .start i P _ => (s.tree i).sess = none ∧ WellFormed P
  | .begin i g => ∀ σ, (s.tree i).sess = some σ → σ.jobs g = none ∧ g ∉ σ.done ∧ Ready σ.P (s.tree i).files σ.done g
  | .finish i => ∀ σ, (s.tree i).sess = some σ → ∀ g, σ.jobs g = none
  | _ => True

/-- No build with `--cache-force` in a tree in which a build was killed or a target was edited by hand. -/
def Polite (s : Sys C A S K) : Cmd C A K → Prop
  | .start i _ fl => fl.force = true → (s.tree i).clean = true
  | _ => True

/-- In the beginning there are only sources, and the cache is empty. -/
structure Fresh (s : Sys C A S K) : Prop where
  db : ∀ i n, (s.tree i).db n = none
  clean : ∀ i, (s.tree i).clean = true
  sess : ∀ i, (s.tree i).sess = none
  cache : ∀ k, s.cache k = none

/-- Everything that happens from one state to another; `Q` restricts it. -/
inductive Steps (X : Tools C A S K) (Q : Sys C A S K → Cmd C A K → Prop) : Sys C A S K → List (Cmd C A K) → Sys C A S K → Prop
  | refl (s) : Steps X Q s [] s
  | tail {s s' l c} : Steps X Q s l s' → Allowed s' c → Q s' c → Steps X Q s (l ++ [c]) (step X s' c)

/-- States that histories lead to. -/
def Reach (X : Tools C A S K) (Q : Sys C A S K → Cmd C A K → Prop) (s : Sys C A S K) : Prop := ∃ s0 l, Fresh s0 ∧ Steps X Q s0 l s

end Verif.CacheSys
