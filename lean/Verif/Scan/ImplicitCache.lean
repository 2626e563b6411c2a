import Verif.Scan.Model
import Verif.Sig.Props

/-!
# `--implicit-cache` (C80)

Models `Node.scan` (/repo/SCons/Node/__init__.py 1078-1131), `add_to_implicit` (1071-1076), `_add_child` (1340-1350), `_children_get` with its memo
(1368-1402), `File.get_stored_implicit` (/repo/SCons/Node/FS.py 2957-2961), `Executor.scan`, `scan_sources`, `scan_targets`
(/repo/SCons/Executor.py 468-501), and what a run then does with the targets of one command: the decision of `make_ready_current`
(/repo/SCons/Taskmaster/__init__.py 387-431), the build, the record (`get_binfo`, Node/__init__.py 1174-1223).  Decisions and records are those
of `Verif.Sig`, the recursive scan is that of `Verif.Scan.Model`.

The scan modelled is the one that the decision is based on: when a dependency that was waited for has been built, `built()` (Node/__init__.py 779-814) drops
the implicit dependencies of the targets that wait for it and they are scanned anew, so that this scan sees the final contents of the
dependencies.  Simplifications: content decider, `--max-drift=-1`, no repositories, no `CacheDir`; one command with its targets, the
other targets of the project appear as edits of its dependencies; the action succeeds.
-/

namespace Verif.ImplicitCache

open Verif.Sig Verif.Scan

variable {V S B K : Type}

/-- `SCons.Node.implicit_cache`, `implicit_deps_changed`, `implicit_deps_unchanged`
(Script/Main.py 1041-1043). -/
structure Flags where
  cache : Bool
  depsChanged : Bool
  depsUnchanged : Bool

/-- A run without any of the options. -/
def Flags.plain : Flags := ⟨false, false, false⟩

/-- File system; `none`: no such file. -/
abbrev Files (V B : Type) := V → Option B

/-- A command as described by the SConscript files of one run.  `ignore t`, `depends t`: of `Ignore(t, …)` and `Depends(t, …)`.  `actsig`: signature of the action.
`srcScanner`, `tgtScanner`: `builder.source_scanner`, `builder.target_scanner`.  `own`: `Executor.get_implicit_deps()`, the programs that the command
runs.  `env`: the scanners, and what they find in which file, given the file system.  `make`: what the action writes to a target. -/
structure Cfg (V S B K : Type) where
  targets : List V
  sources : List V
  depends : V → List V
  ignore : V → List V
  actsig : K
  srcScanner : Option S
  tgtScanner : Option S
  own : List V
  env : Files V B → Env V S
  make : Files V B → V → B

/-- The hash function, and `Util.NOFILE`. -/
structure Hash (B K : Type) where
  hash : B → K
  nofile : B
  size : B → Int

/-- What is there between runs: the files, the records of the targets (`none`: no record). -/
structure St (V B K : Type) where
  fs : Files V B
  db : V → Option (BInfo V K)

variable [DecidableEq V] [DecidableEq K]

/-- The world the deciders see. -/
def world (M : Hash B K) (s : St V B K) : World V B K where
  content := s.fs
  mtime := fun _ => 0
  now := 0
  maxDrift := -1
  stored := fun v => { binfo := (s.db v).getD {} }
  hash := M.hash
  nofile := M.nofile
  size := M.size

/-- The target nodes of a command during a run: `node.implicit` and the memo of `_children_get`. -/
structure Nodes (V : Type) where
  implicit : V → Option (List V)
  memo : V → Option (List V)

/-- New nodes. -/
def Nodes.new : Nodes V := ⟨fun _ => none, fun _ => none⟩

def upd {α : Type} (f : V → α) (v : V) (a : α) : V → α := fun x => if x = v then a else f x

/-- The target for the decision (`Verif.Sig`). -/
def target (c : Cfg V S B K) (N : Nodes V) (t : V) : Target V K :=
  { sources := c.sources, depends := c.depends t, implicit := (N.implicit t).getD [], ignore := c.ignore t, hasBuilder := true, actsig := c.actsig }

/-- `_children_get` (Node/__init__.py 1368-1402): the list of the memo if there is one. -/
def children (c : Cfg V S B K) (N : Nodes V) (t : V) : List V := (N.memo t).getD (target c N t).children

/-- The target with `children` for its children. -/
def seen (c : Cfg V S B K) (N : Nodes V) (t : V) : Target V K :=
  { sources := children c N t, depends := [], implicit := [], ignore := [], hasBuilder := true, actsig := c.actsig }

/-- `t.is_up_to_date()` (FS.py 3553-3585): the answer. -/
def upToDate (M : Hash B K) (c : Cfg V S B K) (s : St V B K) (N : Nodes V) (t : V) : Bool :=
  ((world M s).isUpToDate .content t (seen c N t) (fun _ => {})).1

/-- … and it leaves the memo. -/
def ask (c : Cfg V S B K) (N : Nodes V) (t : V) : Nodes V := { N with memo := upd N.memo t (some (children c N t)) }

/-- `add_to_implicit` (Node/__init__.py 1071-1076) with `_add_child` (1340-1350): the memo is dropped if there was no list, or if
the list grows. -/
def addTo (N : Nodes V) (deps : List V) (t : V) : Nodes V :=
  let old := (N.implicit t).getD []
  let new := addChild old deps
  { implicit := upd N.implicit t (some new)
    memo := if (N.implicit t).isNone || decide (new ≠ old) then upd N.memo t none else N.memo }

/-- `for tgt in executor.get_all_targets(): tgt.add_to_implicit(deps)`. -/
def addAll (N : Nodes V) (deps : List V) (ts : List V) : Nodes V := ts.foldl (fun N t => addTo N deps t) N

/-- `Executor.scan` (Executor.py 481-501). `none`: some scan is not finished after `n` iterations. -/
def executorScan (E : Env V S) (init : Option S) (own : List V) (ts nodeList : List V) (n : Nat) (N : Nodes V) : Option (Nodes V) :=
  match nodeList.mapM (fun v => getImplicitDeps E init v n) with
  | none => none
  | some ls => some (addAll N (ls.flatten ++ own) ts)

/-- `scan_sources` (Executor.py 472-475). -/
def scanSources (c : Cfg V S B K) (fs : Files V B) (n : Nat) (N : Nodes V) : Option (Nodes V) :=
  if c.sources.isEmpty then some N else executorScan (c.env fs) c.srcScanner c.own c.targets c.sources n N

/-- The end of `Node.scan` (Node/__init__.py 1122-1131) with `scan_targets` (Executor.py 468-470). -/
def freshScan (c : Cfg V S B K) (fs : Files V B) (n : Nat) (N : Nodes V) : Option (Nodes V) :=
  match scanSources c fs n N with
  | none => none
  | some N =>
    match c.tgtScanner with
    | none => some N
    | some sc => executorScan (c.env fs) (some sc) c.own c.targets c.targets n N

/-- `tgt.implicit = []`, for all targets (Node/__init__.py 1117-1120); the memo stays. -/
def dropAll (N : Nodes V) (ts : List V) : Nodes V := { N with implicit := ts.foldl (fun f t => upd f t (some [])) N.implicit }

/-- `Node.scan` (Node/__init__.py 1078-1131) of target `t`. -/
def scan (M : Hash B K) (f : Flags) (c : Cfg V S B K) (s : St V B K) (n : Nat) (N : Nodes V) (t : V) : Option (Nodes V) :=
  if (N.implicit t).isSome then some N
  else
    let N0 : Nodes V := ⟨upd N.implicit t (some []), upd N.memo t none⟩
    if f.cache && !f.depsChanged then
      match s.db t with
      | none => freshScan c s.fs n N0
      | some bi =>
        let N1 := addAll N0 bi.bimplicit c.targets
        if f.depsUnchanged then some N1
        else if upToDate M c s N1 t then some (ask c N1 t)
        else freshScan c s.fs n (dropAll (ask c N1 t) c.targets)
    else freshScan c s.fs n N0

/-- The scans of the targets of a task: first of the node that the Taskmaster has come to, then of the others. -/
def scanAll (M : Hash B K) (f : Flags) (c : Cfg V S B K) (s : St V B K) (n : Nat) : List V → Nodes V → Option (Nodes V)
  | [], N => some N
  | t :: ts, N =>
    match scan M f c s n N t with
    | none => none
    | some N' => scanAll M f c s n ts N'

/-- All targets are up to date (Taskmaster/__init__.py 402-414). -/
def allCurrent (M : Hash B K) (c : Cfg V S B K) (s : St V B K) (N : Nodes V) : Bool := c.targets.all (upToDate M c s N)

/-- The record of a target (Node/__init__.py 1174-1223); the infos of the dependencies hold the signatures of their contents. -/
def record (M : Hash B K) (c : Cfg V S B K) (s : St V B K) (N : Nodes V) (t : V) : BInfo V K :=
  (target c N t).binfo (fun v => (world M s).freshInfo v (some ((world M s).diskCsig v)))

/-- A run, the Taskmaster comes to `first` first: scans, decision, build if something is out of date, records (`visited()`, `built()`).  The `Bool`: the command was run. -/
def run (M : Hash B K) (n : Nat) (f : Flags) (c : Cfg V S B K) (first : V) (s : St V B K) : Option (St V B K × Bool) :=
  match scanAll M f c s n (first :: c.targets) Nodes.new with
  | none => none
  | some N =>
    some ({ fs := if allCurrent M c s N then s.fs else fun v => if v ∈ c.targets then some (c.make s.fs v) else s.fs v
            db := fun v => if v ∈ c.targets then some (record M c s N v) else s.db v },
          !allCurrent M c s N)

/-- One step of a history: files are changed, then SCons is run. -/
structure Session (V S B K : Type) where
  edit : Files V B → Files V B
  cfg : Cfg V S B K
  first : V
  flags : Flags

/-- A history; the answers of the runs: was the command run? -/
def history (M : Hash B K) (n : Nat) : List (Session V S B K) → St V B K → Option (St V B K × List Bool)
  | [], s => some (s, [])
  | h :: hs, s =>
    match run M n h.flags h.cfg h.first { s with fs := h.edit s.fs } with
    | none => none
    | some (s', b) =>
      match history M n hs s' with
      | none => none
      | some (s'', bs) => some (s'', b :: bs)

/-- The same history without the options. -/
def Session.without (h : Session V S B K) : Session V S B K := { h with flags := Flags.plain }

/-- The file systems that the runs of a history meet. -/
def met (M : Hash B K) (n : Nat) : List (Session V S B K) → St V B K → List (Cfg V S B K × Files V B)
  | [], _ => []
  | h :: hs, s =>
    (h.cfg, h.edit s.fs) ::
      match run M n h.flags h.cfg h.first { s with fs := h.edit s.fs } with
      | none => []
      | some (s', _) => met M n hs s'

/-! ### Specification -/

/-- From one run to a later one the description of the command is the same but for the action, and a file with the same content includes the same
files (a missing file counts as one that holds the marker for missing files).  Of the targets themselves and of ignored files, whose
content is not recorded, the latter is required also if the content differs. -/
structure Stable (M : Hash B K) (a b : Cfg V S B K × Files V B) : Prop where
  targets : b.1.targets = a.1.targets
  sources : b.1.sources = a.1.sources
  depends : b.1.depends = a.1.depends
  ignore : b.1.ignore = a.1.ignore
  srcScanner : b.1.srcScanner = a.1.srcScanner
  tgtScanner : b.1.tgtScanner = a.1.tgtScanner
  own : b.1.own = a.1.own
  sel : (b.1.env b.2).sel = (a.1.env a.2).sel
  envSc : (b.1.env b.2).envSc = (a.1.env a.2).envSc
  recurse : (b.1.env b.2).recurse = (a.1.env a.2).recurse
  found : ∀ v sc, (b.2 v).getD M.nofile = (a.2 v).getD M.nofile ∨ v ∈ a.1.targets ∨ (∃ t ∈ a.1.targets, v ∈ a.1.ignore t) →
    (b.1.env b.2).found v sc = (a.1.env a.2).found v sc

/-- A command for which the cache is right: the sources are given once each, all targets ignore the same files, no file is both `Depends()` and `Ignore()`,
and scanners go on with nothing but what they have found. -/
structure Sane (c : Cfg V S B K) : Prop where
  nodup : c.sources.Nodup
  ignore : ∀ t ∈ c.targets, ∀ t' ∈ c.targets, c.ignore t = c.ignore t'
  depends : ∀ t ∈ c.targets, ∀ x ∈ c.depends t, x ∉ c.ignore t
  recurse : ∀ (fs : Files V B) sc l, ∀ x ∈ (c.env fs).recurse sc l, x ∈ l

end Verif.ImplicitCache
