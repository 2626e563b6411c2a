import Mathlib.Algebra.BigOperators.Group.List.Basic
import Mathlib.Algebra.Order.Group.Multiset
import Mathlib.Tactic.Abel

/-!
# Model of the parallel scheduler `NewParallel` (`SCons/Taskmaster/Job.py:435-760`)

Worker threads as program counters over shared variables; one step is one step of one worker, and a run is an arbitrary
interleaving.  The taskmaster is abstract here (`TMI`): four relations, so everything holds whatever it answers; the
instance with the model of `Verif.TM` is in `Verif/Pool/Compose.lean`.

Simplifications: (1) the code inside `with self.results_queue_lock` (a swap, `:626-627`, or an append, `:752-753`) is one atomic
step, and that lock is not a variable; (2) calls of `executed`/`failed`/`postprocess`/`prepare`/`next_task` do not raise (an exception
there would end the thread inside the critical section); (3) no spurious wake-ups; (4) creating a thread never fails.
-/

namespace Verif.Pool

/-- `NewParallel.State`, `:437-441`. -/
inductive JState | ready | searching | stalled | completed
  deriving DecidableEq, Repr

/-- What the scheduler uses of the taskmaster.  `T` its state, `K` the tasks. -/
structure TMI (T K : Type) where
  /-- `next_task()` gave a task that needed no execution or whose `prepare()` raised; it was retired at once (`:672-683`) -/
  internal : T → T → Prop
  /-- `next_task()` gave a task, `prepare()` succeeded and `needs_execute()` is true (`:684-694`) -/
  give : T → K → T → Prop
  /-- `next_task()` returned None (`:696`) -/
  empty : T → T → Prop
  /-- `executed()` (`true`) or `failed()` (`false`), then `postprocess()` (`:631-647`) -/
  retire : T → K → Bool → T → Prop
  /-- `Taskmaster.stop()` called by the signal handler, in the main thread, at any time (`:145-148`) -/
  signal : T → T → Prop

/-- Program counter of a worker inside `_work`, `:565-760`.  `check`, `retire`, `search`, `release` hold `tm_lock`. -/
inductive PC (K : Type)
  /-- top of the `while True` loop, about to take the lock (`:572`); the flag is `task is not None` -/
  | top (completedTask : Bool)
  /-- lock taken, `:580-618` -/
  | check (completedTask : Bool)
  /-- inside `can_search_cv.wait()`, not notified yet (`:603`) -/
  | waiting
  /-- notified, has to take the lock again -/
  | woken
  /-- retiring the local list of results (`:631-650`) -/
  | retire (rs : List (K × Bool))
  /-- in the `while self.state == SEARCHING` loop (`:658-726`) -/
  | search
  /-- leaving the `with` block with `task` -/
  | release (task : Option K)
  /-- running `task.execute()` (`:735-743`) -/
  | exec (k : K)
  /-- about to append to the results queue (`:752-753`) -/
  | enqueue (k : K) (ok : Bool)
  /-- left the loop (`:609`) -/
  | halted

/-- The shared state. `max` = `max_workers`.  The last three fields are history (ghost) variables. -/
structure Pool (T K : Type) where
  pcs : List (PC K)
  st : JState
  jobs : Int
  results : List (K × Bool)
  lock : Option Nat
  tm : T
  max : Nat
  /-- ghost: tasks handed to a worker for execution -/
  given : Multiset K
  /-- ghost: results of `execute()` (`false`: it raised) -/
  execd : Multiset (K × Bool)
  /-- ghost: tasks passed to `executed` (`true`) / `failed` (`false`) and `postprocess` -/
  retired : Multiset (K × Bool)

/-- `__init__` + `start` (`:478-530`): one worker; READY; no jobs. -/
def Pool.init {T K : Type} (tm : T) (max : Nat) : Pool T K where
  pcs := [.top false]
  st := .ready
  jobs := 0
  results := []
  lock := none
  tm := tm
  max := max
  given := 0
  execd := 0
  retired := 0

/-- A waiting worker is notified. -/
def PC.wake {K : Type} : PC K → PC K
  | .waiting => .woken
  | p => p

/-- `notify_all()`. -/
def wakeAll {K : Type} (pcs : List (PC K)) : List (PC K) := pcs.map PC.wake

/-- `notify()`: some waiting thread, if there is one. -/
def Notified {K : Type} (a b : List (PC K)) : Prop :=
  (∃ j : Nat, a[j]? = some .waiting ∧ b = a.set j .woken) ∨ ((∀ j : Nat, a[j]? ≠ some .waiting) ∧ b = a)

/-- `_maybe_start_worker`, `:532-535`. -/
def maybeStart {K : Type} (max : Nat) (jobs : Int) (pcs : List (PC K)) : List (PC K) :=
  if 1 < max ∧ pcs.length < max ∧ (pcs.length : Int) ≤ jobs then pcs ++ [.top false] else pcs

/-- The state test at the head of the critical section, `:594-597`. -/
def unstall (st : JState) (completedTask : Bool) : JState :=
  if st = .stalled ∧ completedTask = true then .ready else st

variable {T K : Type}

/-- One step of worker `i`. -/
inductive Step (M : TMI T K) : Pool T K → Pool T K → Prop
  | acquire {s : Pool T K} (i : Nat) (d : Bool) (h : s.pcs[i]? = some (.top d)) (hl : s.lock = none) :
      Step M s { s with pcs := s.pcs.set i (.check d), lock := some i }
  | reacquire {s : Pool T K} (i : Nat) (h : s.pcs[i]? = some .woken) (hl : s.lock = none) :
      Step M s { s with pcs := s.pcs.set i (.check false), lock := some i }
  /-- the `while` loop around `wait()`: `wait` releases the lock -/
  | wait {s : Pool T K} (i : Nat) (d : Bool) (h : s.pcs[i]? = some (.check d))
      (hst : unstall s.st d = .searching ∨ unstall s.st d = .stalled) :
      Step M s { s with pcs := s.pcs.set i .waiting, lock := none, st := unstall s.st d }
  | halt {s : Pool T K} (i : Nat) (d : Bool) (h : s.pcs[i]? = some (.check d)) (hst : unstall s.st d = .completed) :
      Step M s { s with pcs := s.pcs.set i .halted, lock := none, st := unstall s.st d }
  | begin {s : Pool T K} (i : Nat) (d : Bool) (h : s.pcs[i]? = some (.check d)) (hst : unstall s.st d = .ready) :
      Step M s { s with pcs := s.pcs.set i (.retire s.results), st := .searching, results := [] }
  | retire {s : Pool T K} (i : Nat) (k : K) (ok : Bool) (rs : List (K × Bool)) (tm' : T) (h : s.pcs[i]? = some (.retire ((k, ok) :: rs))) (ht : M.retire s.tm k ok tm') :
      Step M s { s with pcs := s.pcs.set i (.retire rs), tm := tm', jobs := s.jobs - 1, retired := (k, ok) ::ₘ s.retired }
  | retired {s : Pool T K} (i : Nat) (h : s.pcs[i]? = some (.retire [])) :
      Step M s { s with pcs := s.pcs.set i .search }
  | internal {s : Pool T K} (i : Nat) (tm' : T) (h : s.pcs[i]? = some .search) (hst : s.st = .searching) (ht : M.internal s.tm tm') :
      Step M s { s with tm := tm' }
  | give {s : Pool T K} (i : Nat) (k : K) (tm' : T) (pcs' : List (PC K)) (h : s.pcs[i]? = some .search) (hst : s.st = .searching) (ht : M.give s.tm k tm')
      (hn : Notified (s.pcs.set i (.release (some k))) pcs') :
      Step M s { s with
        pcs := maybeStart s.max (s.jobs + 1) pcs', st := .ready, jobs := s.jobs + 1, tm := tm', given := k ::ₘ s.given }
  | stall {s : Pool T K} (i : Nat) (tm' : T) (h : s.pcs[i]? = some .search) (hst : s.st = .searching) (ht : M.empty s.tm tm') (hj : s.jobs ≠ 0) :
      Step M s { s with pcs := s.pcs.set i (.release none), st := .stalled, tm := tm' }
  | complete {s : Pool T K} (i : Nat) (tm' : T) (h : s.pcs[i]? = some .search) (hst : s.st = .searching) (ht : M.empty s.tm tm') (hj : s.jobs = 0) :
      Step M s { s with pcs := wakeAll (s.pcs.set i (.release none)), st := .completed, tm := tm' }
  | releaseExec {s : Pool T K} (i : Nat) (k : K) (h : s.pcs[i]? = some (.release (some k))) :
      Step M s { s with pcs := s.pcs.set i (.exec k), lock := none }
  | releaseIdle {s : Pool T K} (i : Nat) (h : s.pcs[i]? = some (.release none)) :
      Step M s { s with pcs := s.pcs.set i (.top false), lock := none }
  | execute {s : Pool T K} (i : Nat) (k : K) (ok : Bool) (h : s.pcs[i]? = some (.exec k)) :
      Step M s { s with pcs := s.pcs.set i (.enqueue k ok), execd := (k, ok) ::ₘ s.execd }
  | enqueue {s : Pool T K} (i : Nat) (k : K) (ok : Bool) (h : s.pcs[i]? = some (.enqueue k ok)) :
      Step M s { s with pcs := s.pcs.set i (.top true), results := s.results ++ [(k, ok)] }

/-- A step of a worker, or the signal handler calling `Taskmaster.stop()`. -/
def Next (M : TMI T K) (s s' : Pool T K) : Prop := Step M s s' ∨ ∃ tm', M.signal s.tm tm' ∧ s' = { s with tm := tm' }

/-- States reachable with a given taskmaster and `-j max`. -/
def Reach (M : TMI T K) (tm : T) (max : Nat) (s : Pool T K) : Prop :=
  Relation.ReflTransGen (Next M) (Pool.init tm max) s

end Verif.Pool
