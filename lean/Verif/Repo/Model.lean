import Mathlib.Data.List.Basic
import Mathlib.Logic.Function.Basic

/-!
# C76: repositories

`Repository(dir)` makes the files of another tree visible in the local tree: a file that is not there locally is taken from the first repository that has it, and a target of a repository
whose recorded dependencies are those of the local project is not built again.  Modelled: `SCons/Node/FS.py` 3553-3585 (`File.is_up_to_date`), 3588-3620 (`rfile`: the first tree that has
the file; how the trees are found is C66), 3161-3176 (`prepare`), 3031-3052 (`visited`), 293-343 (`LinkFunc`, `LocalCopy`); `SCons/Node/__init__.py` 1471-1532 (`changed`), 341-348
(`store_info_file`); `SCons/Taskmaster/__init__.py` 387-431 (`make_ready_current`), 281-310 (`executed_with_callbacks`); `SCons/Environment.py` 2793-2817 (`Local`, `Precious`).

Simplifications: files are numbered, a number standing for the same path in each tree; the content decider; an action writes all its targets or, if it fails, none; the targets of an
action have the same dependencies; soft links are not modelled (a local copy is a hard link, the default, or a copy).
-/

namespace Verif.Repo

/-- Files and tasks. -/
abbrev Node := Nat

/-- What is recorded of a build: the signatures of the dependencies and of the action. -/
structure Rec (S : Type) where
  sigs : List S
  act : S
  deriving DecidableEq

/-- A tree: its files and its `.sconsign`. -/
structure Tree (C S : Type) where
  files : Node → Option C
  db : Node → Option (Rec S)

/-- The local tree, the repositories in order, and which local files are hard links to a file (of the same path) of a repository. -/
structure World (C S : Type) where
  loc : Tree C S
  reps : List (Tree C S)
  share : Node → Option Nat

/-- The outside: what actions make of the contents of the dependencies, and the two signature functions (of contents, `none` for a missing file, and of actions). -/
structure Tools (C A S : Type) where
  exec : A → List (Option C) → Option (Node → C)
  h : Option C → S
  hA : A → S
  /-- `--duplicate=hard-...`, the default -/
  hard : Bool

/-- What the `SConstruct` declares: the tasks with their targets, dependencies (which may depend on contents: scanners) and actions. -/
structure Project (C A : Type) where
  targets : Nat → List Node
  deps : Nat → (Node → Option C) → List Node
  act : Nat → A
  isLocal : Node → Bool
  precious : Node → Bool

variable {C A S : Type} [DecidableEq S]

/-- The first repository with the file (`rfile`, FS.py 3588-3620), and the content. -/
def firstWith : List (Tree C S) → Nat → Node → Option (Nat × C)
  | [], _, _ => none
  | T :: Ts, i, n => match T.files n with
    | some c => some (i, c)
    | none => firstWith Ts (i + 1) n

/-- The content of `rfile()`. -/
def World.view (W : World C S) (n : Node) : Option C := match W.loc.files n with
  | some c => some c
  | none => (firstWith W.reps 0 n).map (·.2)

/-- The record `get_binfo()` makes now (Node/__init__.py 1174-1223). -/
def recOf (X : Tools C A S) (P : Project C A) (W : World C S) (g : Nat) : Rec S := ⟨(P.deps g W.view).map fun k => X.h (W.view k), X.hA (P.act g)⟩

/-- `LocalCopy` (FS.py 3571-3576). -/
def World.copy (X : Tools C A S) (W : World C S) (n : Node) (i : Nat) (c : C) (r : Rec S) : World C S :=
  { W with loc := ⟨Function.update W.loc.files n (some c), Function.update W.loc.db n (some r)⟩, share := Function.update W.share n (if X.hard then some i else none) }

/-- `is_up_to_date()` (FS.py 3553-3585). -/
def check (X : Tools C A S) (P : Project C A) (r : Rec S) (n : Node) (W : World C S) : Bool × World C S :=
  match W.loc.files n with
  | some _ => (decide (W.loc.db n = some r), W)
  | none => match firstWith W.reps 0 n with
    | none => (false, W)
    | some (i, c) =>
      if ((W.reps[i]?).bind fun T => T.db n) = some r then (true, if P.isLocal n then W.copy X n i c r else W) else (false, W)

/-- The loop of `make_ready_current` over the targets (Taskmaster/__init__.py 400-413): all are asked. -/
def checkAll (X : Tools C A S) (P : Project C A) (r : Rec S) : List Node → World C S → Bool × World C S
  | [], W => (true, W)
  | n :: ns, W =>
    let a := check X P r n W
    let b := checkAll X P r ns a.2
    (a.1 && b.1, b.2)

/-- `prepare()` (FS.py 3161-3176); `existed` is what `exists()` remembers from before the question whether the target is up to date: a local copy made since is not seen. -/
def prepare (P : Project C A) (existed : Bool) (n : Node) (W : World C S) : World C S :=
  if existed ∧ ¬ P.precious n then { W with loc := { W.loc with files := Function.update W.loc.files n none }, share := Function.update W.share n none } else W

/-- Put a content into the file of a repository. -/
def patch (Ts : List (Tree C S)) (i : Nat) (n : Node) (c : C) : List (Tree C S) :=
  Ts.modify i fun T => { T with files := Function.update T.files n (some c) }

/-- The action writes a target; a file that is there is written to in place. -/
def write (n : Node) (c : C) (W : World C S) : World C S :=
  { W with
    loc := { W.loc with files := Function.update W.loc.files n (some c) }
    reps := match W.loc.files n, W.share n with
      | some _, some i => patch W.reps i n c
      | _, _ => W.reps }

/-- Store the record for all targets (`visited`, FS.py 3031-3052). -/
def World.store (r : Rec S) (ns : List Node) (W : World C S) : World C S := { W with loc := { W.loc with db := fun n => if n ∈ ns then some r else W.loc.db n } }

/-- One task: `none`, the action failed; `some b`, the targets are there and the action was (`b`) executed. -/
def runTask (X : Tools C A S) (P : Project C A) (g : Nat) (W : World C S) : World C S × Option Bool :=
  let r := recOf X P W g
  let q := checkAll X P r (P.targets g) W
  if q.1 then (q.2.store r (P.targets g), some false)
  else
    let W1 := (P.targets g).foldl (fun W' n => prepare P (W.loc.files n).isSome n W') q.2
    match X.exec (P.act g) ((P.deps g W.view).map W.view) with
    | none => (W1, none)
    | some f => (((P.targets g).foldl (fun W' n => write n (f n) W') W1).store r (P.targets g), some true)

/-- A run: tasks are executed in any order in which dependencies come first.  The lists are the tasks done and those whose actions were executed, the last one first. -/
inductive Run (X : Tools C A S) (P : Project C A) (W : World C S) : List Nat → List Nat → World C S → Prop
  | start : Run X P W [] [] W
  | ok {d e W1 W2 g b} : Run X P W d e W1 → g ∉ d → (∀ k ∈ P.deps g W1.view, ∀ g', k ∈ P.targets g' → g' ∈ d) → runTask X P g W1 = (W2, some b) →
      Run X P W (g :: d) (if b then g :: e else e) W2
  | fail {d e W1 W2 g} : Run X P W d e W1 → g ∉ d → (∀ k ∈ P.deps g W1.view, ∀ g', k ∈ P.targets g' → g' ∈ d) → runTask X P g W1 = (W2, none) → Run X P W d e W2

end Verif.Repo
