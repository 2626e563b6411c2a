import Verif.Sig.Props

/-!
# Whole builds: file contents, the signature database, runs and histories of runs

A labelled transition system on top of `Verif.Sig`: the nodes of a project, their contents, what `.sconsign` holds, and what one run has done so far.
The order in which nodes are handled, the interleaving of concurrently running actions and the moments at which an action reads its inputs are
labels, i.e. arbitrary, subject only to the rule that a target is handled when the dependencies found by its latest scan are finished (that
the Taskmaster obeys this rule is C01; `Verif.Build.Compose` makes the connection).

A command that makes several targets is several actions here, one for each target, with the steps of one target between those of another: what it writes to one
target is a function of the dependencies of that target, and all of them start when one of them is out of date (a target may start although it
is up to date).  `Verif.Build.Compose` says which targets go together.

Simplifications: no side effects, content decider, `--max-drift=-1` (see C20 for the other values), no repositories, no `CacheDir`.
-/

namespace Verif.Build

open Verif.Sig

/-- What a target consists of once its dependencies are known; `action` stands for the expanded command(s), and for which of the command's targets this is. -/
structure Leaf (V A : Type) where
  sources : List V
  depends : List V
  implicit : List V
  ignore : List V
  action : A

/-- The scan of a target as a reading procedure (`Node.scan` → `executor.scan` → `get_implicit_deps`, `Node/__init__.py:985-1022`, `:1077-1140`):
it looks at the content of one file after the other, and which file it looks at next, and what the dependency lists are in the end, may depend
on the contents seen so far. -/
inductive Scan (V B A : Type)
  | found (l : Leaf V A)
  | look (d : V) (k : Option B → Scan V B A)

/-- A project as described by the SConscript files of one run: `none` = a source file. -/
abbrev Desc (V B A : Type) := V → Option (Scan V B A)

/-- Meaning of actions and the hash function.  `run a` maps the contents of the dependencies, in order, to the content of the target
(deterministic actions that read only their dependencies); a missing file counts as the marker `nofile`. -/
structure Sem (B K A : Type) where
  run : A → List B → B
  sig : A → K
  hash : B → K
  nofile : B
  size : B → Int

variable {V B K A : Type} [DecidableEq V] [DecidableEq K]

/-- File system: `none` = no such file. -/
abbrev Files (V B : Type) := V → Option B

/-- Result of a scan in a given file system. -/
def Scan.result (fs : Files V B) : Scan V B A → Leaf V A
  | .found l => l
  | .look d k => (k (fs d)).result fs

/-- The files looked at. -/
def Scan.asked (fs : Files V B) : Scan V B A → List V
  | .found _ => []
  | .look d k => d :: (k (fs d)).asked fs

/-- The corresponding node of the decision subsystem. -/
def Leaf.target (M : Sem B K A) (l : Leaf V A) : Target V K :=
  { sources := l.sources, depends := l.depends, implicit := l.implicit, ignore := l.ignore, hasBuilder := true, actsig := M.sig l.action }

/-- `children()`: see `Target.children`. -/
def Leaf.children (l : Leaf V A) : List V :=
  (l.sources ++ l.depends ++ l.implicit).filter (fun c => decide (c ∉ l.ignore))

/-- An action in progress.  `log`: the file system as it was at every moment since the action started. -/
structure Run (V B A : Type) where
  leaf : Leaf V A
  log : List (Files V B)

/-- State.  `db`: signature information in memory, `disk`: as last written; `infos`, `done`, `running`: of the current run. -/
structure St (V B K A : Type) where
  fs : Files V B
  db : V → BInfo V K
  disk : V → BInfo V K
  infos : Infos V K
  done : V → Prop
  running : V → Option (Run V B A)
  /-- a run is in progress -/
  busy : Bool

/-- The world the deciders see. -/
def St.world (M : Sem B K A) (S : St V B K A) : World V B K where
  content := S.fs
  mtime := fun _ => 0
  now := 0
  maxDrift := -1
  stored := fun v => { binfo := S.db v }
  hash := M.hash
  nofile := M.nofile
  size := M.size

/-- Content of a dependency as an action sees it. -/
def Sem.see (M : Sem B K A) (o : Option B) : B := o.getD M.nofile

/-- Replace the content of one file; running actions can see the new state from now on. -/
def St.write (S : St V B K A) (v : V) (b : Option B) : St V B K A :=
  let fs' : Files V B := fun x => if x = v then b else S.fs x
  { S with fs := fs', running := fun x => (S.running x).map fun r => { r with log := fs' :: r.log } }

/-- `t` may be handled: it is a target, not handled yet, and all dependencies the latest scan found are finished. -/
def St.ready (S : St V B K A) (D : Desc V B A) (t : V) (sc : Scan V B A) : Prop :=
  S.busy = true ∧ D t = some sc ∧ ¬ S.done t ∧ S.running t = none ∧ ∀ c ∈ (sc.result S.fs).children, S.done c

/-- `is_up_to_date()` was called: the content signatures of the dependencies are known. -/
def St.checked (S : St V B K A) (l : Leaf V A) : Prop := ∀ c ∈ l.children, (S.infos c).csig.isSome

/-- Step labels. -/
inductive Lab (V B : Type)
  | begin | source (v : V) | check (t : V) | current (t : V) | start (t : V) | finish (t : V) (view : V → Option B) | fail (t : V) (left : Option B)
  | finishRun | kill (left : V → Option B) | edit (v : V) (b : Option B) | scribble (t : V) (b : Option B)

/-- Steps of SCons and of the user.  The description `D` is that of the run in progress. -/
inductive Step (M : Sem B K A) (D : Desc V B A) : St V B K A → Lab V B → St V B K A → Prop
  /-- start of a run: nothing handled, no signatures in memory but those read from disk -/
  | begin (S) : S.busy = false →
      Step M D S .begin { S with busy := true, done := fun _ => False, running := fun _ => none, infos := fun _ => {}, db := S.disk }
  /-- a source file is visited -/
  | source (S) (v : V) : S.busy = true → D v = none → ¬ S.done v →
      Step M D S (.source v) { S with done := fun x => x = v ∨ S.done x }
  /-- `is_up_to_date()` computes content signatures of dependencies and keeps them -/
  | check (S) (t : V) (sc : Scan V B A) : S.ready D t sc →
      Step M D S (.check t) { S with infos := ((S.world M).isUpToDate .content t ((sc.result S.fs).target M) S.infos).2 }
  /-- a target was found up to date (`make_ready_current`), `visited()` stores its info -/
  | current (S) (t : V) (sc : Scan V B A) : S.ready D t sc → S.checked (sc.result S.fs) →
      ((S.world M).isUpToDate .content t ((sc.result S.fs).target M) S.infos).1 = true →
      Step M D S (.current t) { S with
        db := fun x => if x = t then ((sc.result S.fs).target M).binfo S.infos else S.db x
        done := fun x => x = t ∨ S.done x }
  /-- a target is out of date, or another target of its action is, or it is `AlwaysBuild()`: `prepare()` removes it (`FS.py:3161-3182`) and the action starts -/
  | start (S) (t : V) (sc : Scan V B A) : S.ready D t sc → S.checked (sc.result S.fs) →
      Step M D S (.start t) { S.write t none with
        infos := fun x => if x = t then {} else S.infos x
        running := fun x => if x = t then some ⟨sc.result S.fs, [(S.write t none).fs]⟩ else (S.write t none).running x }
  /-- a running action writes its target (anything, any number of times): other actions and scans may see this -/
  | scribble (S) (t : V) (r : Run V B A) (b : Option B) : S.busy = true → S.running t = some r → Step M D S (.scribble t b) (S.write t b)
  /-- the action of `t` ends successfully; it has read each dependency at some moment since it started.  `built()` resets and recomputes the
  node's info and stores the build info (`Node/__init__.py:779-814`, `FS.py:3288-3310`) -/
  | finish (S) (t : V) (r : Run V B A) (view : V → Option B) : S.busy = true → S.running t = some r →
      (∀ c ∈ r.leaf.children, ∃ snap ∈ r.log, view c = snap c) →
      Step M D S (.finish t view) { S.write t (some (M.run r.leaf.action (r.leaf.children.map fun c => M.see (view c)))) with
        infos := fun x => if x = t then { csig := some (M.hash (M.run r.leaf.action (r.leaf.children.map fun c => M.see (view c)))) } else S.infos x
        db := fun x => if x = t then (r.leaf.target M).binfo S.infos else S.db x
        done := fun x => x = t ∨ S.done x
        running := fun x => if x = t then none else (S.write t (some (M.run r.leaf.action (r.leaf.children.map fun c => M.see (view c))))).running x }
  /-- the action of `t` fails, leaving `left` under the target's name (`none`: no file); nothing is stored -/
  | fail (S) (t : V) (r : Run V B A) (left : Option B) : S.busy = true → S.running t = some r →
      Step M D S (.fail t left) { S.write t left with
        running := fun x => if x = t then none else (S.write t left).running x }
  /-- the run ends (completely or after failures): `SConsign.write()` -/
  | finishRun (S) : S.busy = true → (∀ t, S.running t = none) → Step M D S .finishRun { S with busy := false, disk := S.db }
  /-- the process dies; each action in progress leaves something or nothing, the signature file is not written -/
  | kill (S) (left : V → Option B) : S.busy = true →
      Step M D S (.kill left) { S with
        busy := false, running := fun _ => none, fs := fun x => if (S.running x).isSome then left x else S.fs x }
  /-- between runs the user creates, changes or deletes files -/
  | edit (S) (v : V) (b : Option B) : S.busy = false →
      Step M D S (.edit v b) { S with fs := fun x => if x = v then b else S.fs x }

/-- States reachable from a fresh check-out: arbitrary files, no signature information; the project description may change between runs (and only
then); `ok` restricts the steps considered. -/
inductive Reach (M : Sem B K A) (wf : Desc V B A → Prop) (ok : St V B K A → Lab V B → Prop) : Desc V B A → St V B K A → Prop
  | init (D) (fs : Files V B) : wf D →
      Reach M wf ok D { fs := fs, db := fun _ => {}, disk := fun _ => {}, infos := fun _ => {}, done := fun _ => False, running := fun _ => none, busy := false }
  | step {D S S'} (l : Lab V B) : Reach M wf ok D S → ok S l → Step M D S l S' → Reach M wf ok D S'
  | newDesc {D D' S} : Reach M wf ok D S → S.busy = false → wf D' → Reach M wf ok D' S

end Verif.Build
