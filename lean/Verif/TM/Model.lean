import Mathlib.Data.Fintype.Card
import Mathlib.Data.Finset.Card
import Mathlib.Data.Finset.Union
import Mathlib.Logic.Relation

/-!
# Model of `SCons/Taskmaster/__init__.py`

The Taskmaster walk as a labelled transition system.  One step is one iteration of the main loop of
`_find_next_ready_node` (followed, when a node is ready, by `next_task`/`prepare`/`executed`…), or the
retirement of one outstanding task.  Everything the walk does not decide itself is a *label* of the step and hence
universally quantified in the theorems: what the scan of a node returns (it may differ every time), whether it
raises, whether the node is up to date, whether `prepare()` raises, how the task ends, and the order in which
Python iterates over its `set`s / `order()` permutes lists.

Nodes are the elements of an arbitrary finite type `V`.
-/

namespace Verif.TM

/-- Node states; `SCons/Node/__init__.py:83-100` (`no_state` … `failed`, numbered 0‥5). -/
inductive NState | noState | pending | executing | upToDate | executed | failed
  deriving DecidableEq, Repr

/-- The numeric order used by `state > NODE_PENDING`, `childstate <= NODE_EXECUTING`. -/
def NState.rank : NState → Nat
  | .noState => 0 | .pending => 1 | .executing => 2 | .upToDate => 3 | .executed => 4 | .failed => 5

/-- "Finished successfully": up to date or executed. -/
def NState.done : NState → Prop
  | .upToDate => True | .executed => True | _ => False

instance : DecidablePred NState.done := fun s => by cases s <;> simp only [NState.done] <;> infer_instance

/-- How `BuildTask.do_failed` treats a failed task; `SCons/Script/Main.py:250-265`. -/
inductive FailMode | stop | keepGoing | ignore
  deriving DecidableEq, Repr

/-- Static part: executors and side effects.
`targets n` = `n.get_executor().get_all_targets()` (`SCons/Executor.py:287-292`),
`actTargets n` = `get_action_targets()` (`:267-273`; `[]` for the Null executor `:620`),
`prereqs n` = `get_all_prerequisites()` (`:317-325`), `sideEffects t` = `t.side_effects`. -/
structure Cfg (V : Type) where
  targets : V → List V
  actTargets : V → List V
  prereqs : V → List V
  sideEffects : V → List V

/-- The Taskmaster's fields plus the per-node fields it uses.  `cands` is the `candidates` list with the *end* of the
Python list first (it is used as a stack); `tops` likewise for `top_targets_left`.  `active` = tasks handed out by
`next_task` and being executed by a job.  The last group are ghost (history) variables that no step reads. -/
structure St (V : Type) where
  state : V → NState
  ref : V → Int
  wp : V → Finset V
  wse : V → Finset V
  cands : List V
  tops : List V
  curTop : Option V
  pend : Finset V
  stopped : Bool
  active : List V
  /-- ghost: every target for which execution was started (with multiplicity) -/
  started : List V
  /-- ghost: targets of tasks that failed (scan/prepare/execute raised) -/
  failedTasks : Finset V
  /-- ghost: all dependencies ever reported by a scan of (the executor of) a node -/
  seen : V → Finset V
  /-- ghost: time of the last NO_STATE → PENDING transition -/
  born : V → Nat
  /-- ghost: number of steps so far -/
  clock : Nat

/-- `Taskmaster.__init__` (`:609-624`): all nodes unvisited, the requested targets in order. -/
def St.init {V : Type} (tops : List V) : St V where
  state := fun _ => .noState
  ref := fun _ => 0
  wp := fun _ => ∅
  wse := fun _ => ∅
  cands := []
  tops := tops
  curTop := none
  pend := ∅
  stopped := false
  active := []
  started := []
  failedTasks := ∅
  seen := fun _ => ∅
  born := fun _ => 0
  clock := 0

/-- Function update. -/
def upd {V A : Type} [DecidableEq V] (f : V → A) (x : V) (a : A) : V → A := fun y => if y = x then a else f y

/-- Update on a set of nodes. -/
def updOn {V A : Type} (f : V → A) (p : V → Prop) [DecidablePred p] (a : A) : V → A :=
  fun y => if p y then a else f y

/-- What `executor.get_all_children()` does at one evaluation: raise or return a list. -/
inductive Scan (V : Type) | raised | ok (kids : List V)

/-- What happens to a node returned by `_find_next_ready_node`, up to the point where a job would execute it. -/
inductive Fate
  /-- scan, `make_ready()` or `prepare()` raised before any state was set; then `failed()`. -/
  | exc (m : FailMode)
  /-- `make_ready()` found it out of date (`true`) / current (`false`), then `prepare()` raised; then `failed()`. -/
  | excReady (needs : Bool) (m : FailMode)
  /-- current: `executed()`; `some m`: `BuildTask.executed` turned this into a failure (`Main.py:267-290`). -/
  | internal (res : Option FailMode)
  /-- out of date: handed to a job. -/
  | start

/-- Step labels. -/
inductive Lab (V : Type)
  /-- one loop iteration: `alt` = `order(alter_targets())` (used only when a new top is popped), the scan result,
  `pushed` = `order(children_not_visited)`, and for a ready node its fate and the push order of `postprocess` -/
  | consider (alt : List V) (scan : Scan V) (pushed : List V) (fate : Fate) (post : List V)
  /-- an outstanding task ends: `none` = success, `some m` = `failed()` in mode `m` -/
  | finish (n : V) (res : Option FailMode) (post : List V)
  /-- `next_task()` after a stop: `no_next_candidate` -/
  | flush
  /-- `Taskmaster.stop()` from the signal handler (`Job.py:150-170`) -/
  | interrupt

section
variable {V : Type} [DecidableEq V]

/-- `find_next_candidate`, `:679-713`. -/
def nextCandidate (S : St V) (alt : List V) : Option (St V × V) :=
  match S.cands with
  | n :: rest => some ({ S with cands := rest }, n)
  | [] =>
    match S.tops with
    | [] => none
    | t :: ts =>
      let S1 := { S with tops := ts, curTop := some t }
      match alt.reverse ++ [t] with
      | a :: r => some ({ S1 with cands := r }, a)
      | [] => none

/-- The loop `node.ref_count += child.add_to_waiting_parents(node)`, `:967-977`; `Node/__init__.py:849-861`. -/
def addWaiting (n : V) : List V → St V → St V
  | [], S => S
  | c :: cs, S =>
    addWaiting n cs { S with
      ref := upd S.ref n (S.ref n + (if n ∈ S.wp c then 0 else 1))
      wp := upd S.wp c (insert n (S.wp c)) }

/-- Result of considering a node. -/
inductive Outcome | skip | ready | raised
  deriving DecidableEq

/-- The side effects of a list of targets. -/
def Cfg.ses (C : Cfg V) (ts : List V) : List V := ts.flatMap C.sideEffects

/-- `node.set_state(NODE_PENDING)`, `:867-869`. -/
def markPending (S : St V) (n : V) : St V :=
  { S with
    state := upd S.state n .pending
    born := if S.state n = .noState then upd S.born n (S.clock + 1) else S.born }

/-- `self.candidates.extend(self.order(children_not_visited))`, `:924-927`. -/
def pushKids (C : Cfg V) (S : St V) (n : V) (all pushed : List V) : St V :=
  { S with
    cands := pushed.reverse ++ S.cands
    seen := updOn S.seen (· ∈ C.targets n) (S.seen n ∪ all.toFinset) }

/-- The rest of the loop body, `:929-1011`: a failed child, children not ready, busy side effects, or ready. -/
def judge (C : Cfg V) (S : St V) (n : V) (all : List V) : St V × Outcome :=
  if all.any (fun c => decide (S.state c = .failed)) then         -- :953-960
    ({ S with state := updOn S.state (· ∈ C.actTargets n) .failed }, .skip)
  else
    let notReady := all.filter (fun c => (S.state c).rank ≤ 2)
    if notReady ≠ [] then                                          -- :962-985
      let S2 := addWaiting n notReady S
      ({ S2 with pend := S2.pend ∪ (all.filter (fun c => S.state c = .pending)).toFinset }, .skip)
    else                                                           -- :987-995
      let busy := (C.ses (C.actTargets n)).filter (fun s => S.state s = NState.executing)
      if busy ≠ [] then
        ({ S with wse := fun s => if s ∈ busy then insert n (S.wse s) else S.wse s }, .skip)
      else (S, .ready)

/-- Body of the loop in `_find_next_ready_node` (`:837-1011`) for a candidate `n` already popped.
`disambiguate()` is the identity.  `none`: the label's `pushed` is not an ordering of `children_not_visited`
(multiplicities are not fixed: more behaviours). -/
def considerNode (C : Cfg V) (S : St V) (n : V) (scan : Scan V) (pushed : List V) : Option (St V × Outcome) :=
  if 1 < (S.state n).rank then some (S, .skip)                    -- :870-875 already evaluated
  else
    match scan with
    | .raised => some (markPending S n, .raised)                  -- :880-898
    | .ok kids =>
      let all := C.prereqs n ++ kids                              -- :905
      if pushed.toFinset = (all.filter (fun c => (markPending S n).state c = .noState)).toFinset then
        some (judge C (pushKids C (markPending S n) n all pushed) n all)
      else none

variable [Fintype V]

/-- Nodes reachable upwards through `waiting_parents` in at most `k` rounds. -/
def upIter (wp : V → Finset V) : Nat → Finset V → Finset V
  | 0, A => A
  | k + 1, A => upIter wp k (A ∪ A.biUnion wp)

/-- Everything `will_not_build` visits: `nodes` and all their waiting ancestors. -/
def upSet (wp : V → Finset V) (A : Finset V) : Finset V := upIter wp (Fintype.card V) A

/-- `will_not_build`, `:1050-1093`, in closed form (`mark` = the callback sets FAILED).  `Verif.TM.Wnb` below is the
literal work-list loop; `wnb_loop_eq` proves that, whatever order `to_visit.pop()` uses, it ends and ends here. -/
def willNotBuild (S : St V) (nodes : Finset V) (mark : Bool) : St V :=
  let U := upSet S.wp nodes
  { S with
    state := if mark then updOn S.state (· ∈ U) .failed else S.state
    wp := updOn S.wp (· ∈ U) ∅
    ref := fun p => S.ref p - ((U.filter (fun c => p ∈ S.wp c)).card : Int)
    pend := S.pend \ U }

/-- `postprocess`, `:434-497`, for the task targets `ts`; `post` is the order of the pushes. -/
def postprocess (C : Cfg V) (S : St V) (ts : List V) (post : List V) : Option (St V) :=
  let T := ts.toFinset
  let SE := (C.ses ts).toFinset
  let S1 := { S with state := updOn S.state (fun s => s ∈ SE ∧ S.state s = NState.executing) .noState }  -- :474-475
  let R := T ∪ SE.filter (fun s => S1.state s = .noState)                                          -- :461-470, :481-486
  let par := R.biUnion S.wp
  let sePush := (SE.biUnion S.wse).filter (fun p => S.ref p = 0)                                   -- :487-489
  let ref' := fun p => S.ref p - ((R.filter (fun c => p ∈ S.wp c)).card : Int)                     -- :491-492
  let parPush := par.filter (fun p => ref' p = 0)                                                  -- :495-496
  if post.toFinset = sePush ∪ parPush then
    some { S1 with
      pend := S.pend \ R.filter (fun t => S.wp t ≠ ∅)
      wp := updOn S.wp (· ∈ R) ∅
      ref := ref'
      cands := post.reverse ++ S.cands }
  else none

/-- `executed_with_callbacks`, `:281-310` (the callbacks `built()`/`visited()` do not touch walk state). -/
def executed (C : Cfg V) (S : St V) (ts : List V) : St V :=
  let ex := ts.filter (fun t => S.state t = .executing)
  { S with state := fun x =>
      if x ∈ ex then .executed
      else if x ∈ C.ses ex then .noState
      else S.state x }

/-- `do_failed` (`Main.py:250-265`) followed by `postprocess`: `ignore` ⇒ `executed`; `keepGoing` ⇒
`fail_continue` (`:352-367`); `stop` ⇒ `fail_stop` (`:324-350`), which replaces the target list by `[current_top]`. -/
def failTask (C : Cfg V) (S : St V) (ts : List V) (m : FailMode) (post : List V) : Option (St V) :=
  let S := { S with failedTasks := S.failedTasks ∪ ts.toFinset }
  match m with
  | .ignore => postprocess C (executed C S ts) ts post
  | .keepGoing => postprocess C (willNotBuild S ts.toFinset true) ts post
  | .stop =>
    let S' := willNotBuild S ts.toFinset true
    postprocess C { S' with stopped := true } S'.curTop.toList post

/-- `make_ready_current`, `:387-430` (`needs` = some target is out of date).  Simplification: `visited()` raising
half-way through the last loop is not modelled. -/
def makeReady (C : Cfg V) (S : St V) (ts : List V) (needs : Bool) : St V :=
  if needs then { S with state := updOn S.state (fun x => x ∈ ts ∨ x ∈ C.ses ts) .executing }
  else { S with state := updOn S.state (· ∈ ts) .upToDate }

/-- `next_task` (`:1015-1048`) plus the prologue in `NewParallel._work` (`Job.py:650-690`) / `Serial.start` for the ready node `n`:
`prepare()`, and, unless the task needs execution, its immediate retirement. -/
def handOut (C : Cfg V) (S : St V) (n : V) (fate : Fate) (post : List V) : Option (St V) :=
  let ts := C.targets n
  match fate with
  | .exc m => failTask C S ts m post
  | .excReady needs m => failTask C (makeReady C S ts needs) ts m post
  | .internal none => postprocess C (executed C (makeReady C S ts false) ts) ts post
  | .internal (some m) => failTask C (makeReady C S ts false) ts m post
  | .start =>
    let S' := makeReady C S ts true
    some { S' with active := n :: S'.active, started := ts ++ S'.started }

/-- One step. -/
def step (C : Cfg V) (S : St V) : Lab V → Option (St V)
  | .consider alt scan pushed fate post =>
    if S.stopped then none else
    match nextCandidate S alt with
    | none => none
    | some (S1, n) =>
      match considerNode C S1 n scan pushed with
      | none => none
      | some (S2, .skip) => some { S2 with clock := S2.clock + 1 }
      | some (S2, .raised) =>
        match fate with
        | .exc m => (handOut C S2 n (.exc m) post).map fun S3 => { S3 with clock := S3.clock + 1 }
        | _ => none
      | some (S2, .ready) =>
        (handOut C S2 n fate post).map fun S3 => { S3 with clock := S3.clock + 1 }
  | .finish n res post =>
    if n ∈ S.active then
      let S1 := { S with active := S.active.erase n, clock := S.clock + 1 }
      match res with
      | none => postprocess C (executed C S1 (C.targets n)) (C.targets n) post
      | some m => failTask C S1 (C.targets n) m post
    else none
  | .flush =>                                                    -- no_next_candidate, :715-727
    if S.stopped then
      some { willNotBuild { S with cands := [] } S.cands.toFinset false with clock := S.clock + 1 }
    else none
  | .interrupt => some { S with stopped := true, clock := S.clock + 1 }

/-- Executions: label sequences. -/
def runs (C : Cfg V) : St V → List (Lab V) → Option (St V)
  | S, [] => some S
  | S, l :: ls => (step C S l).bind fun S' => runs C S' ls

/-- The walk is over: `next_task()` returns None and no job is outstanding. -/
def St.over (S : St V) : Prop := S.cands = [] ∧ (S.tops = [] ∨ S.stopped = true) ∧ S.active = []

/-- `cleanup`, `:1101-1128`: raises `UserError` iff some pending child has a cycle through it (as found by
`find_cycle`, modelled in `Verif.TM.Cycle`) or is not in the executed state. -/
def cleanupRaises (S : St V) (foundCycle : V → Bool) : Prop :=
  ∃ n ∈ S.pend, foundCycle n = true ∨ S.state n ≠ .executed

end
end Verif.TM
