/-!
# Configure checks (`SCons/SConf.py`)

A model of what happens when a `Configure` context builds the nodes of a check: `SConfBase.BuildNodes`
(SConf.py 524-590), `SConfBuildTask` (SConf.py 222-400), and the parts of `Task.make_ready_current`
(Taskmaster/__init__.py 387-431), `Task.prepare` (160-203), `Task.executed_with_callbacks` (281-310),
`Job.Serial.start` (Job.py 196-230), `File.is_up_to_date` (Node/FS.py 3553-3585), `Node.changed`
(Node/__init__.py 1471-1532), `File.prepare` (FS.py 3161-3176), `File.get_csig` (FS.py 3248-3278),
`File.get_max_drift_csig` (FS.py 3222-3246) and `SConsign.Base.store_info`/`merge`
(SConsign.py 216-240) that they go through.

Simplifications.  The Taskmaster is not run again here (it is modelled in `Verif.TM`): a check is the
list of its tasks in the order in which the serial job runs them, children first.  Project files used by
a check (`leaf`) have no builder.  The decider is the default one (content).  `sem` is what actions do:
the outcome of an action is a function of its text and of the contents of its dependencies in order
(so no compiler or system header changes behind SCons's back); `sig` is the content signature
of a file that may be absent (`NOFILE`).
-/

namespace Verif.Conf

/-- The value of `--config` (SConf.py 70-90, `SetCacheMode`). -/
inductive Mode where
  | auto | force | cache
deriving DecidableEq

/-- What an action does: whether it succeeds, and what it leaves in a file. -/
structure Effect (N C : Type) where
  ok : Bool
  out : N → Option C

/-- The settings of a run.  `dry`: `SConf.dryrun` (set by `-n` and by `-q`, Main.py 1045-1049);
`noexec`: `Action.execute_actions = None` (set by `-n` only); `leaf n`: `n` has no builder;
`viaEnv n`: whether `n` changed is asked of the environment's decider (files; not `Value` nodes, whose
entry of `_decider_map`, Node/__init__.py 315-321, is 6); `track n`: `n.store_info` is not zero.
`BuildNodes` sets it to zero for the nodes it is given, and means to for their children: the loop
(SConf.py 556-563) assigns `n.store_info` where it should be `c.store_info`. -/
structure Cfg (N C H A : Type) where
  mode : Mode
  dry : Bool
  noexec : Bool
  leaf : N → Bool
  viaEnv : N → Bool
  track : N → Bool
  sig : Option C → H
  sem : A → List (Option C) → Effect N C

/-- A stored build information: `sconf`: it is an `SConfBuildInfo` (SConf.py 177-193), `sigs`: the
content signatures of the children (`bsourcesigs + bdependsigs + bimplicitsigs`), `act`: `bactsig`
(taken as the action's contents), `failed`: `result`.  The recorded output is not modelled. -/
structure Rec (H A : Type) where
  sconf : Bool
  sigs : List H
  act : A
  failed : Bool
deriving DecidableEq

/-- Disk and `.sconsign`: file contents, the `ninfo.csig` and the `binfo` stored for a node.
Entries written by `SConfBuildTask.execute` have no `ninfo` (SConf.py 352-353, 371-372). -/
structure World (N C H A : Type) where
  file : N → Option C
  stored : N → Option H
  info : N → Option (Rec H A)

/-- A task: its targets, its children, the contents of its action. -/
structure Task (N A : Type) where
  targets : List N
  deps : List N
  act : A

/-- What comes of a check: built (or up to date), failed, `ConfigureCacheError`,
`ConfigureDryRunError`. -/
inductive Verdict where
  | ok | no | cacheError | dryError
deriving DecidableEq

/-- `NODE_EXECUTING` or `NODE_UP_TO_DATE`: the state `make_ready_current` leaves a task's targets in. -/
inductive St where
  | executing | upToDate
deriving DecidableEq

section
variable {N C H A : Type} [DecidableEq N] [DecidableEq H] [DecidableEq A]

/-- `File.get_csig` (FS.py 3248-3278) within `BuildNodes`: `set_max_drift(0)` (SConf.py 571) makes
`get_max_drift_csig` (FS.py 3240-3244) return the stored signature, whatever the file's time stamp. -/
def csig (c : Cfg N C H A) (w : World N C H A) (n : N) : H :=
  match w.stored n with
  | some h => h
  | none => c.sig (w.file n)

/-- `Node.changed` (Node/__init__.py 1471-1532) for a target.  Without a stored entry the action
signature `None` differs.  With `--config=force` the environment's decider is `force_build`
(SConf.py 429-446), which says True. -/
def changed (c : Cfg N C H A) (w : World N C H A) (k : Task N A) (t : N) : Bool :=
  match w.info t with
  | none => true
  | some r =>
    (c.mode == .force && k.deps.any c.viaEnv)
      || !(r.sigs == k.deps.map (csig c w)) || !(r.act == k.act)

/-- `Task.make_ready_current` (Taskmaster/__init__.py 400-431) with `File.is_up_to_date`
(FS.py 3553-3585; no repositories, no `AlwaysBuild`). -/
def ready (c : Cfg N C H A) (w : World N C H A) (k : Task N A) : St :=
  if k.targets.all (fun t => (w.file t).isSome && !changed c w k t) then .upToDate else .executing

/-- `Executor.prepare` (Executor.py 413-421) and `Node.prepare` (Node/__init__.py 751-760): a child that is not
derived and not there. -/
def missing (c : Cfg N C H A) (w : World N C H A) (k : Task N A) : Bool :=
  k.deps.any (fun d => c.leaf d && (w.file d).isNone)

/-- `File.prepare` (FS.py 3161-3176) for all the targets: unless they are up to date, existing files
are removed (`Unlink` is an action: not executed with `-n`). -/
def prepare (c : Cfg N C H A) (w : World N C H A) (k : Task N A) (s : St) : World N C H A :=
  if s = .executing ∧ c.noexec = false then
    { w with file := fun n => if n ∈ k.targets then none else w.file n }
  else w

/-- What `collect_node_states` accumulates. -/
structure Coll where
  changed : Bool
  cachedError : Bool
  cachable : Bool

/-- One round of the loop of `collect_node_states` (SConf.py 283-308). -/
def collectOne (c : Cfg N C H A) (w : World N C H A) (k : Task N A) (s : St) (a : Coll) (t : N) : Coll :=
  match w.info t with
  | none => { a with changed := s != .upToDate, cachable := false }
  | some r =>
    if r.sconf then
      { a with
        changed :=
          if c.mode = .cache then a.changed
          else a.changed || (s != .upToDate && changed c w k t)
        cachedError := a.cachedError || r.failed }
    else { a with changed := s != .upToDate, cachable := false }

/-- `SConfBuildTask.collect_node_states` (SConf.py 271-310). -/
def collect (c : Cfg N C H A) (w : World N C H A) (k : Task N A) (s : St) : Coll :=
  k.targets.foldl (collectOne c w k s) ⟨false, false, true⟩

/-- The files after the action ran (`targets[0].build()`, SConf.py 345). -/
def write (k : Task N A) (e : Effect N C) (f : N → Option C) : N → Option C :=
  fun n => if n ∈ k.targets then (match e.out n with | some x => some x | none => f n) else f n

/-- The entries written after an action ran (SConf.py 353-391). -/
def record (k : Task N A) (sigs : List H) (failed : Bool) (f : N → Option (Rec H A)) :
    N → Option (Rec H A) :=
  fun n => if n ∈ k.targets then some ⟨true, sigs, k.act, failed⟩ else f n

/-- `visited()` (FS.py 3031-3053) when the task is done: a node whose `store_info` is not zero has the
stored `binfo` merged with the present one (SConsign.py 216-220; `result` is not among the merged
fields). -/
def visit (c : Cfg N C H A) (k : Task N A) (sigs : List H) (w : World N C H A) : World N C H A :=
  { w with info := fun n =>
      if n ∈ k.targets ∧ c.track n = true then
        match w.info n with
        | some r => some { r with sigs := sigs, act := k.act }
        | none => some ⟨false, sigs, k.act, false⟩
      else w.info n }

/-- What a task comes to. -/
structure Out (N C H A : Type) where
  w : World N C H A
  /-- the actions that ran, in order -/
  ran : List A
  v : Verdict

/-- The building branch of `SConfBuildTask.execute` (SConf.py 334-391). -/
def build (c : Cfg N C H A) (k : Task N A) (sigs : List H) (w : World N C H A) : Out N C H A :=
  if (c.sem k.act (k.deps.map w.file)).ok then
    ⟨visit c k sigs { w with
        file := write k (c.sem k.act (k.deps.map w.file)) w.file, info := record k sigs false w.info },
      [k.act], .ok⟩
  else
    ⟨{ w with
        file := write k (c.sem k.act (k.deps.map w.file)) w.file, info := record k sigs true w.info },
      [k.act], .no⟩

/-- `SConfBuildTask.execute` (SConf.py 312-391) with what follows (`failed`, 253-269, or
`executed`). -/
def execute (c : Cfg N C H A) (k : Task N A) (s : St) (sigs : List H) (w : World N C H A) : Out N C H A :=
  if c.mode = .cache ∧ (collect c w k s).cachable = false then ⟨w, [], .cacheError⟩
  else if c.mode ≠ .force ∧ (collect c w k s).changed = false then
    if (collect c w k s).cachedError then ⟨w, [], .no⟩ else ⟨visit c k sigs w, [], .ok⟩
  else if c.dry then ⟨w, [], .dryError⟩
  else build c k sigs w

/-- One round of `Serial.start` (Job.py 196-230) on a task with a builder.  An exception in `prepare`
is no `SConfError`: the task fails (SConf.py 253-269) and nothing is stored. -/
def step (c : Cfg N C H A) (k : Task N A) (w : World N C H A) : Out N C H A :=
  if missing c w k then ⟨w, [], .no⟩
  else execute c k (ready c w k) (k.deps.map (csig c w)) (prepare c w k (ready c w k))

/-- `BuildNodes` (SConf.py 524-590): the tasks in order; a failure stops the Taskmaster
(`Task.fail_stop`), an `SConfError` leaves `BuildNodes`.  The value returned is 1 iff the verdict is
`ok`. -/
def run (c : Cfg N C H A) : List (Task N A) → World N C H A → Out N C H A
  | [], w => ⟨w, [], .ok⟩
  | k :: ks, w =>
    match (step c k w).v with
    | .ok =>
      ⟨(run c ks (step c k w).w).w, (step c k w).ran ++ (run c ks (step c k w).w).ran,
        (run c ks (step c k w).w).v⟩
    | v => ⟨(step c k w).w, (step c k w).ran, v⟩

end
end Verif.Conf
