import Verif.Pool.Compose

/-!
# C62: the legacy schedulers (`--experimental=legacy_sched_deprecated`)

`Serial` (`Job.py:178-230`) and `LegacyParallel` with its `ThreadPool` (`Job.py:233-432`), over the same interface to the taskmaster as `NewParallel`.

Simplifications: `queue.Queue` operations are atomic; calls of the taskmaster and of the tasks' `executed`/`failed`/`postprocess` do not raise; creating a thread never
fails; `worker.join(1.0)` is a step that may happen at any time (it has a time limit).
-/

namespace Verif.Pool

variable {T K : Type}

/-! ## `Serial` -/

/-- Where `Serial.start` is. -/
inductive SPC (K : Type)
  | loop
  | exec (k : K)
  | done

/-- The serial scheduler; the last three fields are history. -/
structure Ser (T K : Type) where
  pc : SPC K := .loop
  tm : T
  given : Multiset K := 0
  execd : Multiset (K × Bool) := 0
  retired : Multiset (K × Bool) := 0

/-- One round of the loop, `Job.py:204-229`, in two steps. -/
inductive SerStep (M : TMI T K) : Ser T K → Ser T K → Prop
  | internal {s : Ser T K} (tm' : T) (h : s.pc = .loop) (ht : M.internal s.tm tm') : SerStep M s { s with tm := tm' }
  | give {s : Ser T K} (k : K) (tm' : T) (h : s.pc = .loop) (ht : M.give s.tm k tm') : SerStep M s { s with pc := .exec k, tm := tm', given := k ::ₘ s.given }
  | finish {s : Ser T K} (k : K) (ok : Bool) (tm' : T) (h : s.pc = .exec k) (ht : M.retire s.tm k ok tm') :
      SerStep M s { s with pc := .loop, tm := tm', execd := (k, ok) ::ₘ s.execd, retired := (k, ok) ::ₘ s.retired }
  | stop {s : Ser T K} (tm' : T) (h : s.pc = .loop) (ht : M.empty s.tm tm') : SerStep M s { s with pc := .done, tm := tm' }
  | signal {s : Ser T K} (tm' : T) (ht : M.signal s.tm tm') : SerStep M s { s with tm := tm' }

/-- Reachable states of the serial scheduler. -/
def SerReach (M : TMI T K) (tm : T) (s : Ser T K) : Prop := Relation.ReflTransGen (SerStep M) { tm := tm } s

/-! ## `LegacyParallel` -/

/-- Where a `Worker` is, `Job.py:248-271`. -/
inductive WPC (K : Type)
  /-- in `requestQueue.get()` -/
  | idle
  /-- has a task, before the test of `interrupted` -/
  | got (k : K)
  | exec (k : K)
  /-- before `resultsQueue.put` -/
  | report (k : K) (ok : Bool)
  | gone

/-- Where the main thread is, `LegacyParallel.start`, `Job.py:374-431`. -/
inductive MPC (K : Type)
  /-- in the loop that starts tasks -/
  | fill
  /-- in `self.tp.get()` -/
  | wait
  /-- has a result to retire -/
  | retire (k : K) (ok : Bool)
  /-- before `self.tp.cleanup()` -/
  | cleanup
  /-- joining the workers -/
  | join
  | halted

/-- The state; `intr`: the `InterruptState`; the last three fields are history. -/
structure Leg (T K : Type) where
  pc : MPC K := .fill
  workers : List (WPC K)
  req : List (Option K) := []
  res : List (K × Bool) := []
  jobs : Int := 0
  intr : Bool := false
  tm : T
  max : Nat
  given : Multiset K := 0
  execd : Multiset (K × Bool) := 0
  retired : Multiset (K × Bool) := 0

/-- `LegacyParallel.__init__`: `num` workers, waiting. -/
def Leg.init (tm : T) (max : Nat) : Leg T K := { workers := List.replicate max .idle, tm := tm, max := max }

/-- One step of one thread. -/
inductive LegStep (M : TMI T K) : Leg T K → Leg T K → Prop
  /-- `:384-401`: a task that is not executed, or whose `prepare()` raised -/
  | internal {s : Leg T K} (tm' : T) (h : s.pc = .fill) (hj : s.jobs < s.max) (ht : M.internal s.tm tm') : LegStep M s { s with tm := tm' }
  /-- `self.tp.put(task)`, `:397-398` -/
  | give {s : Leg T K} (k : K) (tm' : T) (h : s.pc = .fill) (hj : s.jobs < s.max) (ht : M.give s.tm k tm') :
      LegStep M s { s with tm := tm', req := s.req ++ [some k], jobs := s.jobs + 1, given := k ::ₘ s.given }
  /-- `next_task()` is None and there are jobs -/
  | empty {s : Leg T K} (tm' : T) (h : s.pc = .fill) (hj : s.jobs < s.max) (ht : M.empty s.tm tm') (h0 : s.jobs ≠ 0) : LegStep M s { s with tm := tm', pc := .wait }
  /-- `if not task and not jobs: break`, `:403` -/
  | stop {s : Leg T K} (tm' : T) (h : s.pc = .fill) (hj : s.jobs < s.max) (ht : M.empty s.tm tm') (h0 : s.jobs = 0) : LegStep M s { s with tm := tm', pc := .cleanup }
  /-- as many jobs as allowed -/
  | full {s : Leg T K} (h : s.pc = .fill) (hj : ¬ s.jobs < s.max) : LegStep M s { s with pc := .wait }
  /-- `task, ok = self.tp.get(); jobs -= 1`, `:409-410` -/
  | get {s : Leg T K} (k : K) (ok : Bool) (rest : List (K × Bool)) (h : s.pc = .wait) (hr : s.res = (k, ok) :: rest) :
      LegStep M s { s with pc := .retire k ok, res := rest, jobs := s.jobs - 1 }
  /-- `executed()` or `failed()`, `postprocess()`, then the test of the queue, `:412-428` -/
  | retire {s : Leg T K} (k : K) (ok : Bool) (tm' : T) (h : s.pc = .retire k ok) (ht : M.retire s.tm k ok tm') :
      LegStep M s { s with tm := tm', pc := if s.res = [] then .fill else .wait, retired := (k, ok) ::ₘ s.retired }
  /-- the sentinels, `:311-312` -/
  | cleanup {s : Leg T K} (h : s.pc = .cleanup) : LegStep M s { s with pc := .join, req := s.req ++ List.replicate s.workers.length Option.none }
  | join {s : Leg T K} (h : s.pc = .join) : LegStep M s { s with pc := .halted }
  | take {s : Leg T K} (i : Nat) (k : K) (rest : List (Option K)) (h : s.workers[i]? = some .idle) (hr : s.req = some k :: rest) :
      LegStep M s { s with workers := s.workers.set i (.got k), req := rest }
  | leave {s : Leg T K} (i : Nat) (rest : List (Option K)) (h : s.workers[i]? = some .idle) (hr : s.req = Option.none :: rest) :
      LegStep M s { s with workers := s.workers.set i .gone, req := rest }
  /-- interrupted: the task fails without being executed, `:259-261` -/
  | refuse {s : Leg T K} (i : Nat) (k : K) (h : s.workers[i]? = some (.got k)) (hi : s.intr = true) :
      LegStep M s { s with workers := s.workers.set i (.report k false) }
  | begin {s : Leg T K} (i : Nat) (k : K) (h : s.workers[i]? = some (.got k)) (hi : s.intr = false) :
      LegStep M s { s with workers := s.workers.set i (.exec k) }
  | execute {s : Leg T K} (i : Nat) (k : K) (ok : Bool) (h : s.workers[i]? = some (.exec k)) :
      LegStep M s { s with workers := s.workers.set i (.report k ok), execd := (k, ok) ::ₘ s.execd }
  | report {s : Leg T K} (i : Nat) (k : K) (ok : Bool) (h : s.workers[i]? = some (.report k ok)) :
      LegStep M s { s with workers := s.workers.set i .idle, res := s.res ++ [(k, ok)] }

/-- A step, or the signal handler (`:145-148`). -/
def LegNext (M : TMI T K) (s s' : Leg T K) : Prop := LegStep M s s' ∨ ∃ tm', M.signal s.tm tm' ∧ s' = { s with tm := tm', intr := true }

/-- Reachable states with `-j max`. -/
def LegReach (M : TMI T K) (tm : T) (max : Nat) (s : Leg T K) : Prop := Relation.ReflTransGen (LegNext M) (Leg.init tm max) s

/-! ## Invariant -/

/-- The task a worker carries. -/
def WPC.tasks : WPC K → Multiset K
  | .got k => {k}
  | .exec k => {k}
  | .report k _ => {k}
  | _ => 0

/-- The task the main thread carries. -/
def MPC.tasks : MPC K → Multiset K
  | .retire k _ => {k}
  | _ => 0

/-- The tasks in the request queue. -/
def reqTasks (r : List (Option K)) : Multiset K := ((r.filterMap id : List K) : Multiset K)

/-- Tasks waiting, being executed or finished, that the main thread has not taken back. -/
def Leg.out (s : Leg T K) : Multiset K := (s.res : Multiset (K × Bool)).map Prod.fst + (s.workers.map WPC.tasks).sum + reqTasks s.req

/-- The main thread is still in its loop. -/
def MPC.live : MPC K → Prop
  | .fill | .wait | .retire .. => True
  | _ => False

/-- The invariant of `LegacyParallel`. -/
structure LInv (s : Leg T K) : Prop where
  given : s.given = s.retired.map Prod.fst + s.pc.tasks + s.out
  jobs : s.jobs = (Multiset.card s.out : Int)
  le : s.jobs ≤ s.max
  len : s.workers.length = s.max
  live : s.pc.live → (∀ i : Nat, s.workers[i]? ≠ some .gone) ∧ none ∉ s.req
  pos : s.pc = .wait → 0 < s.jobs
  over : ¬ s.pc.live → s.jobs = 0

theorem reqTasks_append (a b : List (Option K)) : reqTasks (a ++ b) = reqTasks a + reqTasks b := by simp [reqTasks]

theorem reqTasks_some (k : K) (r : List (Option K)) : reqTasks (some k :: r) = k ::ₘ reqTasks r := by simp [reqTasks]

theorem reqTasks_none (r : List (Option K)) : reqTasks (none :: r) = reqTasks r := by simp [reqTasks]

theorem reqTasks_nones (n : Nat) : reqTasks (List.replicate n (none : Option K)) = 0 := by simp [reqTasks]

theorem LInv.init (tm : T) (max : Nat) (hm : 1 ≤ max) : LInv (Leg.init tm max : Leg T K) where
  given := by simp [Leg.init, Leg.out, MPC.tasks, WPC.tasks, reqTasks]
  jobs := by simp [Leg.init, Leg.out, WPC.tasks, reqTasks]
  le := by simp [Leg.init]
  len := by simp [Leg.init]
  live := by
    intro _; refine ⟨fun i h => ?_, by simp [Leg.init]⟩
    simp only [Leg.init, List.getElem?_replicate] at h
    split at h <;> cases h
  pos := by intro h; simp [Leg.init] at h
  over := by intro h; simp [Leg.init, MPC.live] at h

theorem LInv.wset {s : Leg T K} (hi : LInv s) {i : Nat} {x y : WPC K} (h : s.workers[i]? = some x) (hy : y ≠ .gone) :
    ∀ j : Nat, s.pc.live → (s.workers.set i y)[j]? ≠ some .gone := by
  intro j hl e
  rw [get_set h] at e
  split at e
  · exact hy (Option.some.inj e)
  · exact (hi.live hl).1 j e

theorem LInv.step {M : TMI T K} {s s' : Leg T K} (hi : LInv s) (hmax : 1 ≤ s.max) (h : LegStep M s s') : LInv s' := by
  obtain ⟨g, j, le, len, live, pos, over⟩ := hi
  have hi : LInv s := ⟨g, j, le, len, live, pos, over⟩
  have L : ∀ p, s.pc = p → (MPC.live p ↔ s.pc.live) := fun p e => by rw [e]
  cases h with
  | internal tm' h hj ht => exact ⟨g, j, le, len, live, pos, over⟩
  | give k tm' h hj ht =>
    refine ⟨?_, ?_, by dsimp only; omega, len, fun hl => ⟨(live hl).1, ?_⟩, ?_, ?_⟩
    · show k ::ₘ s.given = _
      rw [g]; simp only [Leg.out, reqTasks_append, reqTasks_some]
      rw [show reqTasks ([] : List (Option K)) = 0 from rfl]
      simp only [← Multiset.singleton_add]; abel
    · show s.jobs + 1 = _
      rw [j]; simp only [Leg.out, reqTasks_append, reqTasks_some, Multiset.card_add, Multiset.card_cons]
      rw [show reqTasks ([] : List (Option K)) = 0 from rfl]; push_cast; simp; omega
    · simpa using (live hl).2
    · intro h'; rw [h] at h'; cases h'
    · intro h'; rw [h] at h'; exact absurd trivial h'
  | empty tm' h hj ht h0 =>
    refine ⟨?_, j, le, len, fun _ => live (by rw [h]; trivial), fun _ => ?_, fun hl => absurd trivial hl⟩
    · show s.given = _; rw [g, h]; rfl
    · have : 0 ≤ s.jobs := by rw [j]; omega
      show 0 < s.jobs; omega
  | stop tm' h hj ht h0 =>
    refine ⟨?_, j, le, len, fun hl => hl.elim, fun h' => (by cases h'), fun _ => h0⟩
    show s.given = _; rw [g, h]; rfl
  | full h hj =>
    refine ⟨?_, j, le, len, fun _ => live (by rw [h]; trivial), fun _ => ?_, fun hl => absurd trivial hl⟩
    · show s.given = _; rw [g, h]; rfl
    · show 0 < s.jobs; omega
  | get k ok rest h hr =>
    refine ⟨?_, ?_, by dsimp only; omega, len, fun _ => live (by rw [h]; trivial), fun h' => (by cases h'), fun hl => absurd trivial hl⟩
    · show s.given = _; rw [g, h]; simp only [Leg.out, hr, MPC.tasks, ← Multiset.cons_coe, Multiset.map_cons]; simp only [← Multiset.singleton_add]; abel
    · show s.jobs - 1 = _
      rw [j]; simp only [Leg.out, hr, ← Multiset.cons_coe, Multiset.map_cons, Multiset.card_add, Multiset.card_cons]; push_cast; omega
  | retire k ok tm' h ht =>
    refine ⟨?_, j, le, len, fun _ => live (by rw [h]; trivial), ?_, ?_⟩
    · show s.given = _; rw [g, h]
      have : MPC.tasks (if s.res = [] then MPC.fill else MPC.wait : MPC K) = 0 := by split <;> rfl
      dsimp only
      rw [this]; simp only [Leg.out, MPC.tasks, Multiset.map_cons]; simp only [← Multiset.singleton_add]; abel
    · intro h'
      dsimp only at h' ⊢
      split at h'
      · cases h'
      · rename_i hne
        rw [j]
        cases hr : s.res with
        | nil => exact absurd hr hne
        | cons p ps => simp only [Leg.out, hr, Multiset.card_add, Multiset.card_map, Multiset.coe_card, List.length_cons]; push_cast; omega
    · intro hl; exfalso; apply hl; dsimp only; split <;> trivial
  | cleanup h =>
    have h0 : s.jobs = 0 := over (by rw [h]; exact fun x => x)
    have e : reqTasks (s.req ++ List.replicate s.workers.length Option.none) = reqTasks s.req := by rw [reqTasks_append, reqTasks_nones]; simp
    refine ⟨?_, ?_, le, len, fun hl => hl.elim, fun h' => (by cases h'), fun _ => h0⟩
    · show s.given = _; rw [g, h]; simp only [Leg.out, e]; rfl
    · show s.jobs = _; rw [j]; simp only [Leg.out, e]
  | join h =>
    have h0 : s.jobs = 0 := over (by rw [h]; exact fun x => x)
    refine ⟨?_, j, le, len, fun hl => hl.elim, fun h' => (by cases h'), fun _ => h0⟩
    show s.given = _; rw [g, h]; rfl
  | take i k rest h hr =>
    have hs := sum_set WPC.tasks h (.got k)
    simp only [WPC.tasks, add_zero] at hs
    have e : Leg.out { s with workers := s.workers.set i (.got k), req := rest } = s.out := by
      simp only [Leg.out, hs, hr, reqTasks_some, ← Multiset.singleton_add]; abel
    refine ⟨?_, ?_, le, by simpa using len, fun hl => ⟨fun jj => hi.wset h (by simp) jj hl, fun hm => (live hl).2 (hr ▸ by simp [hm])⟩, pos, over⟩
    · rw [e]; exact g
    · rw [e]; exact j
  | leave i rest h hr =>
    have hs := sum_set WPC.tasks h .gone
    simp only [WPC.tasks, add_zero] at hs
    have e : Leg.out { s with workers := s.workers.set i .gone, req := rest } = s.out := by
      simp only [Leg.out, hs, hr, reqTasks_none]
    have hl : ¬ s.pc.live := fun hl => (live hl).2 (hr ▸ by simp)
    refine ⟨?_, ?_, le, by simpa using len, fun hl' => absurd hl' hl, pos, over⟩
    · rw [e]; exact g
    · rw [e]; exact j
  | refuse i k h hin =>
    have hs := sum_set WPC.tasks h (.report k false)
    simp only [WPC.tasks] at hs
    have e : Leg.out { s with workers := s.workers.set i (.report k false) } = s.out := by
      simp only [Leg.out, add_right_cancel hs]
    refine ⟨?_, ?_, le, by simpa using len, fun hl => ⟨fun jj => hi.wset h (by simp) jj hl, (live hl).2⟩, pos, over⟩
    · rw [e]; exact g
    · rw [e]; exact j
  | begin i k h hin =>
    have hs := sum_set WPC.tasks h (.exec k)
    simp only [WPC.tasks] at hs
    have e : Leg.out { s with workers := s.workers.set i (.exec k) } = s.out := by
      simp only [Leg.out, add_right_cancel hs]
    refine ⟨?_, ?_, le, by simpa using len, fun hl => ⟨fun jj => hi.wset h (by simp) jj hl, (live hl).2⟩, pos, over⟩
    · rw [e]; exact g
    · rw [e]; exact j
  | execute i k ok h =>
    have hs := sum_set WPC.tasks h (.report k ok)
    simp only [WPC.tasks] at hs
    have e : Leg.out { s with workers := s.workers.set i (.report k ok), execd := (k, ok) ::ₘ s.execd } = s.out := by
      simp only [Leg.out, add_right_cancel hs]
    refine ⟨?_, ?_, le, by simpa using len, fun hl => ⟨fun jj => hi.wset h (by simp) jj hl, (live hl).2⟩, pos, over⟩
    · rw [e]; exact g
    · rw [e]; exact j
  | report i k ok h =>
    have hs := sum_set WPC.tasks h .idle
    simp only [WPC.tasks, add_zero] at hs
    have e : Leg.out { s with workers := s.workers.set i .idle, res := s.res ++ [(k, ok)] } = s.out := by
      simp only [Leg.out]
      rw [← hs]
      simp only [← Multiset.coe_add, Multiset.map_add, Multiset.coe_singleton, Multiset.map_singleton]; abel
    refine ⟨?_, ?_, le, by simpa using len, fun hl => ⟨fun jj => hi.wset h (by simp) jj hl, (live hl).2⟩, pos, over⟩
    · rw [e]; exact g
    · rw [e]; exact j

theorem LegStep.max_eq {M : TMI T K} {s s' : Leg T K} (h : LegStep M s s') : s'.max = s.max := by cases h <;> rfl

theorem LegReach.inv {M : TMI T K} {tm : T} {max : Nat} (hm : 1 ≤ max) {s : Leg T K} (h : LegReach M tm max s) : LInv s ∧ s.max = max := by
  induction h with
  | refl => exact ⟨LInv.init tm max hm, rfl⟩
  | tail _ h ih =>
    rcases h with h | ⟨tm', -, rfl⟩
    · exact ⟨ih.1.step (by rw [ih.2]; exact hm) h, by rw [h.max_eq, ih.2]⟩
    · obtain ⟨⟨g, j, le, len, live, pos, over⟩, e⟩ := ih
      exact ⟨⟨g, j, le, len, live, pos, over⟩, e⟩

theorem madd {α : Type} {a b : Multiset α} (h : a + b = 0) : a = 0 ∧ b = 0 := by
  have := congrArg Multiset.card h
  rw [Multiset.card_add, Multiset.card_zero] at this
  exact ⟨Multiset.card_eq_zero.1 (by omega), Multiset.card_eq_zero.1 (by omega)⟩

/-! ## The theorems -/

/-- The worker runs `task.execute()`. -/
def WPC.isExec : WPC K → Bool
  | .exec _ => true
  | _ => false

/-- **C62, at most N at a time.** -/
theorem C62_at_most_N_jobs {M : TMI T K} {tm : T} {max : Nat} (hm : 1 ≤ max) {s : Leg T K} (h : LegReach M tm max s) :
    (s.workers.filter WPC.isExec).length ≤ max ∧ s.jobs ≤ max := by
  obtain ⟨hi, e⟩ := h.inv hm
  exact ⟨le_trans (List.length_filter_le _ _) (by rw [hi.len, e]), by rw [← e]; exact hi.le⟩

/-- **C62, no task is lost or retired twice.**  The tasks handed out are those retired, the one the main thread is retiring, those in the results queue, those some
worker has, and those in the request queue; when the main thread has left its loop, all are retired and the queues hold no task. -/
theorem C62_no_task_lost_or_retired_twice {M : TMI T K} {tm : T} {max : Nat} (hm : 1 ≤ max) {s : Leg T K} (h : LegReach M tm max s) :
    s.given = s.retired.map Prod.fst + s.pc.tasks + ((s.res : Multiset (K × Bool)).map Prod.fst + (s.workers.map WPC.tasks).sum + reqTasks s.req) ∧
    (¬ s.pc.live → s.given = s.retired.map Prod.fst ∧ s.res = [] ∧ reqTasks s.req = 0 ∧ ∀ w ∈ s.workers, w.tasks = 0) := by
  obtain ⟨hi, e⟩ := h.inv hm
  refine ⟨hi.given, fun hl => ?_⟩
  have h0 := hi.over hl
  rw [hi.jobs] at h0
  have h1 : s.out = 0 := Multiset.card_eq_zero.1 (by omega)
  have h2 : s.pc.tasks = 0 := by
    cases hp : s.pc <;> first | rfl | (rw [hp] at hl; exact absurd trivial hl)
  have h3 := hi.given
  rw [h1, h2] at h3
  obtain ⟨h1a, h1c⟩ := madd h1
  obtain ⟨h1a, h1b⟩ := madd h1a
  refine ⟨by simpa using h3, by simpa using h1a, h1c, ?_⟩
  have : ∀ l : List (WPC K), (l.map WPC.tasks).sum = 0 → ∀ w ∈ l, w.tasks = 0 := by
    intro l
    induction l with
    | nil => simp
    | cons a l ih =>
      intro hs w hw
      rw [List.map_cons, List.sum_cons] at hs
      replace hs := madd hs
      rcases List.mem_cons.1 hw with rfl | hw
      · exact hs.1
      · exact ih hs.2 w hw
  exact this _ h1b

/-- The outcome a worker is about to report. -/
def WPC.outc : WPC K → Multiset (K × Bool)
  | .report k ok => {(k, ok)}
  | _ => 0

/-- The outcome the main thread is about to retire. -/
def MPC.outc : MPC K → Multiset (K × Bool)
  | .retire k ok => {(k, ok)}
  | _ => 0

/-- **C62, outcomes are not mixed up.**  The outcomes retired, being retired, in the results queue and about to be reported are those of the executions, each once,
and failures of tasks that were not executed because of an interrupt. -/
theorem C62_outcomes {M : TMI T K} {tm : T} {max : Nat} {s : Leg T K} (h : LegReach M tm max s) :
    ∃ refused : Multiset K, s.retired + s.pc.outc + (s.res : Multiset (K × Bool)) + (s.workers.map WPC.outc).sum = s.execd + refused.map (fun k => (k, false)) ∧
      (s.intr = false → refused = 0) := by
  induction h with
  | refl => exact ⟨0, by simp [Leg.init, MPC.outc, WPC.outc], fun _ => rfl⟩
  | @tail a b _ h ih =>
    obtain ⟨r, h1, h2⟩ := ih
    rcases h with h | ⟨tm', -, rfl⟩
    · cases h with
      | internal tm' h hj ht => exact ⟨r, h1, h2⟩
      | give k tm' h hj ht => exact ⟨r, h1, h2⟩
      | empty tm' h hj ht h0 => exact ⟨r, by rw [h] at h1; exact h1, h2⟩
      | stop tm' h hj ht h0 => exact ⟨r, by rw [h] at h1; exact h1, h2⟩
      | full h hj => exact ⟨r, by rw [h] at h1; exact h1, h2⟩
      | get k ok rest h hr =>
        refine ⟨r, ?_, h2⟩
        rw [h, hr] at h1
        simp only [MPC.outc, ← Multiset.cons_coe, ← Multiset.singleton_add] at h1 ⊢
        rw [← h1]; abel
      | retire k ok tm' h ht =>
        refine ⟨r, ?_, h2⟩
        have : MPC.outc (if a.res = [] then MPC.fill else MPC.wait : MPC K) = 0 := by split <;> rfl
        rw [h] at h1
        dsimp only
        rw [this]
        simp only [MPC.outc, ← Multiset.singleton_add] at h1 ⊢
        rw [← h1]; abel
      | cleanup h => exact ⟨r, by rw [h] at h1; exact h1, h2⟩
      | join h => exact ⟨r, by rw [h] at h1; exact h1, h2⟩
      | take i k rest h hr =>
        have hs := sum_set WPC.outc h (.got k)
        simp only [WPC.outc, add_zero] at hs
        exact ⟨r, by dsimp only; rw [hs]; exact h1, h2⟩
      | leave i rest h hr =>
        have hs := sum_set WPC.outc h .gone
        simp only [WPC.outc, add_zero] at hs
        exact ⟨r, by dsimp only; rw [hs]; exact h1, h2⟩
      | refuse i k h hin =>
        have hs := sum_set WPC.outc h (.report k false)
        simp only [WPC.outc, add_zero] at hs
        refine ⟨k ::ₘ r, ?_, fun h => by rw [show a.intr = _ from h] at hin; cases hin⟩
        dsimp only
        rw [hs, Multiset.map_cons, ← Multiset.singleton_add, ← add_assoc, h1]; abel
      | begin i k h hin =>
        have hs := sum_set WPC.outc h (.exec k)
        simp only [WPC.outc, add_zero] at hs
        exact ⟨r, by dsimp only; rw [hs]; exact h1, h2⟩
      | execute i k ok h =>
        have hs := sum_set WPC.outc h (.report k ok)
        simp only [WPC.outc, add_zero] at hs
        refine ⟨r, ?_, h2⟩
        dsimp only
        rw [hs, ← Multiset.singleton_add, ← add_assoc, h1]; abel
      | report i k ok h =>
        have hs := sum_set WPC.outc h .idle
        simp only [WPC.outc, add_zero] at hs
        refine ⟨r, ?_, h2⟩
        dsimp only
        rw [← h1, ← hs, ← Multiset.coe_add, Multiset.coe_singleton]; abel
    · exact ⟨r, h1, fun h => by cases h⟩

/-- What the main thread may ask the taskmaster in state `s`. -/
structure LLive (M : TMI T K) (s : Leg T K) : Prop where
  retire : ∀ k ok, s.pc = .retire k ok → ∃ t', M.retire s.tm k ok t'
  next : (∃ t', M.internal s.tm t') ∨ (∃ k t', M.give s.tm k t') ∨ (∃ t', M.empty s.tm t')

/-- **C62, no deadlock.** Unless the main thread has returned, some thread can take a step. -/
theorem C62_no_deadlock {M : TMI T K} {tm : T} {max : Nat} (hm : 1 ≤ max) {s : Leg T K} (h : LegReach M tm max s) (hl : LLive M s) :
    s.pc = .halted ∨ ∃ s', LegStep M s s' := by
  obtain ⟨hi, e⟩ := h.inv hm
  cases hp : s.pc with
  | halted => exact .inl rfl
  | fill =>
    right
    by_cases hj : s.jobs < s.max
    · rcases hl.next with ⟨t', ht⟩ | ⟨k, t', ht⟩ | ⟨t', ht⟩
      · exact ⟨_, .internal t' hp hj ht⟩
      · exact ⟨_, .give k t' hp hj ht⟩
      · by_cases h0 : s.jobs = 0
        · exact ⟨_, .stop t' hp hj ht h0⟩
        · exact ⟨_, .empty t' hp hj ht h0⟩
    · exact ⟨_, .full hp hj⟩
  | retire k ok => obtain ⟨t', ht⟩ := hl.retire k ok hp; exact .inr ⟨_, .retire k ok t' hp ht⟩
  | cleanup => exact .inr ⟨_, .cleanup hp⟩
  | join => exact .inr ⟨_, .join hp⟩
  | wait =>
    right
    cases hr : s.res with
    | cons p rest => exact ⟨_, .get p.1 p.2 rest hp hr⟩
    | nil =>
      have hpos := hi.pos hp
      rw [hi.jobs] at hpos
      have hlive : s.pc.live := by rw [hp]; trivial
      by_cases hw : ∃ (i : Nat) (w : WPC K), s.workers[i]? = some w ∧ w ≠ .idle ∧ w ≠ .gone
      · obtain ⟨i, w, hw, h1, h2⟩ := hw
        cases w with
        | idle => exact absurd rfl h1
        | gone => exact absurd rfl h2
        | got k =>
          cases hin : s.intr with
          | true => exact ⟨_, .refuse i k hw hin⟩
          | false => exact ⟨_, .begin i k hw hin⟩
        | exec k => exact ⟨_, .execute i k true hw⟩
        | report k ok => exact ⟨_, .report i k ok hw⟩
      · have hidle : ∀ (i : Nat) (w : WPC K), s.workers[i]? = some w → w = .idle := by
          intro i w hw'
          by_contra hne
          exact hw ⟨i, w, hw', hne, fun hg => (hi.live hlive).1 i (hg ▸ hw')⟩
        have hz : (s.workers.map WPC.tasks).sum = 0 := by
          have : ∀ w ∈ s.workers, w = .idle := fun w hw' => by
            obtain ⟨i, hi', rfl⟩ := List.mem_iff_getElem.1 hw'
            exact hidle i _ (List.getElem?_eq_getElem hi')
          clear hidle hw
          generalize s.workers = l at this
          induction l with
          | nil => rfl
          | cons a l ih => rw [List.map_cons, List.sum_cons, this a (by simp), ih (fun w hw => this w (by simp [hw]))]; rfl
        have hreq : s.req ≠ [] := by
          intro h0
          simp only [Leg.out, hr, hz, h0] at hpos
          simp [reqTasks] at hpos
        have h0 : 0 < s.workers.length := by rw [hi.len, e]; exact hm
        have hw0 : s.workers[0]? = some .idle := by
          rw [List.getElem?_eq_getElem h0, hidle 0 _ (List.getElem?_eq_getElem h0)]
        cases hq : s.req with
        | nil => exact absurd hq hreq
        | cons o rest =>
          cases o with
          | none => exact absurd (by rw [hq]; simp) (hi.live hlive).2
          | some k => exact ⟨_, .take 0 k rest hw0 hq⟩

/-- **C62, an interrupt starts no further command.** Once the interrupt flag is up no worker begins to execute: those that get a task report it failed. -/
theorem C62_interrupt_starts_nothing {M : TMI T K} {s s' : Leg T K} (h : LegStep M s s') (hi : s.intr = true) :
    s'.intr = true ∧ ∀ (i : Nat) (k : K), s'.workers[i]? = some (.exec k) → s.workers[i]? = some (.exec k) := by
  have key : ∀ {i : Nat} {x y : WPC K}, s.workers[i]? = some x → (∀ k, y ≠ .exec k) → ∀ (j : Nat) (k : K), (s.workers.set i y)[j]? = some (.exec k) →
      s.workers[j]? = some (.exec k) := by
    intro i x y hx hy j k hj
    rw [get_set hx] at hj
    split at hj
    · exact absurd (Option.some.inj hj) (hy k)
    · exact hj
  cases h with
  | take i k rest h hr => exact ⟨hi, key h (by simp)⟩
  | leave i rest h hr => exact ⟨hi, key h (by simp)⟩
  | refuse i k h hin => exact ⟨hi, key h (by simp)⟩
  | begin i k h hin => rw [hi] at hin; cases hin
  | execute i k ok h => exact ⟨hi, key h (by simp)⟩
  | report i k ok h => exact ⟨hi, key h (by simp)⟩
  | _ => exact ⟨hi, fun _ _ h => h⟩

/-- Work left for the threads between two moves of the taskmaster. -/
def WPC.weight : WPC K → Nat
  | .idle => 1
  | .got _ => 7
  | .exec _ => 6
  | .report _ _ => 5
  | .gone => 0

/-- Idem, of the main thread. -/
def MPC.weight : MPC K → Nat
  | .fill => 3
  | .wait => 2
  | .retire .. => 1
  | .cleanup => 2
  | .join => 1
  | .halted => 0

/-- Idem, of a request. -/
def reqWeight : Option K → Nat
  | some _ => 7
  | none => 0

/-- Work left; the sentinels to come count. -/
def Leg.weight (s : Leg T K) : Nat :=
  s.pc.weight + (s.workers.map WPC.weight).sum + (s.req.map reqWeight).sum + 3 * s.res.length

theorem LegStep.decr {M : TMI T K} {W : Type} {lt : W → W → Prop} {μ : T → W} {s s' : Leg T K}
    (hi : ∀ t', M.internal s.tm t' → lt (μ t') (μ s.tm)) (hg : ∀ k t', M.give s.tm k t' → lt (μ t') (μ s.tm))
    (hr : ∀ k ok t', M.retire s.tm k ok t' → lt (μ t') (μ s.tm)) (he : ∀ t', M.empty s.tm t' → μ t' = μ s.tm ∨ lt (μ t') (μ s.tm))
    (h : LegStep M s s') : Prod.Lex lt (fun a b : Nat => a < b) (μ s'.tm, s'.weight) (μ s.tm, s.weight) := by
  have same : s'.tm = s.tm → s'.weight < s.weight → Prod.Lex lt (fun a b : Nat => a < b) (μ s'.tm, s'.weight) (μ s.tm, s.weight) := by
    intro e h; rw [e]; exact Prod.Lex.right _ h
  have less : lt (μ s'.tm) (μ s.tm) → Prod.Lex lt (fun a b : Nat => a < b) (μ s'.tm, s'.weight) (μ s.tm, s.weight) := Prod.Lex.left _ _
  cases h with
  | internal tm' h hj ht => exact less (hi _ ht)
  | give k tm' h hj ht => exact less (hg _ _ ht)
  | empty tm' h hj ht h0 =>
    rcases he _ ht with h1 | h1
    · dsimp only; rw [h1]; refine Prod.Lex.right _ ?_; simp only [Leg.weight, h, MPC.weight]; omega
    · exact less h1
  | stop tm' h hj ht h0 =>
    rcases he _ ht with h1 | h1
    · dsimp only; rw [h1]; refine Prod.Lex.right _ ?_; simp only [Leg.weight, h, MPC.weight]; omega
    · exact less h1
  | full h hj => refine same rfl ?_; simp only [Leg.weight, h, MPC.weight]; omega
  | get k ok rest h hr' => refine same rfl ?_; simp only [Leg.weight, h, MPC.weight, hr', List.length_cons]; omega
  | retire k ok tm' h ht => exact less (hr _ _ _ ht)
  | cleanup h =>
    refine same rfl ?_
    have : (List.replicate s.workers.length (none : Option K)).map reqWeight = List.replicate s.workers.length 0 := by simp [reqWeight]
    simp only [Leg.weight, h, MPC.weight, List.map_append, List.sum_append, this, List.sum_replicate]; simp
  | join h => refine same rfl ?_; simp only [Leg.weight, h, MPC.weight]; omega
  | take i k rest h hr' =>
    refine same rfl ?_
    have := sum_set WPC.weight h (.got k)
    simp only [Leg.weight, hr', List.map_cons, List.sum_cons, reqWeight]
    simp only [WPC.weight] at this; omega
  | leave i rest h hr' =>
    refine same rfl ?_
    have := sum_set WPC.weight h .gone
    simp only [Leg.weight, hr', List.map_cons, List.sum_cons, reqWeight]
    simp only [WPC.weight] at this; omega
  | refuse i k h hin =>
    refine same rfl ?_
    have := sum_set WPC.weight h (.report k false)
    simp only [Leg.weight]; simp only [WPC.weight] at this; omega
  | begin i k h hin =>
    refine same rfl ?_
    have := sum_set WPC.weight h (.exec k)
    simp only [Leg.weight]; simp only [WPC.weight] at this; omega
  | execute i k ok h =>
    refine same rfl ?_
    have := sum_set WPC.weight h (.report k ok)
    simp only [Leg.weight]; simp only [WPC.weight] at this; omega
  | report i k ok h =>
    refine same rfl ?_
    have := sum_set WPC.weight h .idle
    simp only [Leg.weight, List.length_append, List.length_singleton]; simp only [WPC.weight] at this; omega

/-- **C62, termination**: as `C12_terminates`. -/
theorem C62_terminates (M : TMI T K) {W : Type} (lt : W → W → Prop) (hwf : WellFounded lt) (μ : T → W)
    (hi : ∀ t t', M.internal t t' → lt (μ t') (μ t)) (hg : ∀ t k t', M.give t k t' → lt (μ t') (μ t))
    (hr : ∀ t k ok t', M.retire t k ok t' → lt (μ t') (μ t)) (he : ∀ t t', M.empty t t' → μ t' = μ t ∨ lt (μ t') (μ t)) :
    WellFounded (fun s' s : Leg T K => LegStep M s s') := by
  have hwf2 : WellFounded (Prod.Lex lt (fun a b : Nat => a < b)) := WellFounded.prod_lex hwf Nat.lt_wfRel.wf
  exact Subrelation.wf (r := InvImage (Prod.Lex lt (fun a b : Nat => a < b)) (fun s : Leg T K => (μ s.tm, s.weight)))
    (fun {_ _} h => LegStep.decr (hi _) (hg _) (hr _) (he _) h) (InvImage.wf _ hwf2)

/-! ## With the taskmaster -/

open Verif.TM (Cfg St Lab Steps)

variable {V : Type} [DecidableEq V] [Fintype V]

theorem legNext_tm {C : Cfg V} {P : St V → Lab V → Prop} {s s' : Leg (St V) V} (h : LegNext (tmi C P) s s') : Steps C P s.tm s'.tm := by
  rcases h with h | ⟨tm', h, rfl⟩
  · cases h with
    | retire k ok tm' h ht => obtain ⟨res, post, hP, -, hs⟩ := ht; exact .tail _ (.refl _) hP hs
    | internal tm' h hj ht => obtain ⟨l, hP, -, hs, -⟩ := ht; exact .tail _ (.refl _) hP hs
    | give k tm' h hj ht => obtain ⟨l, hP, -, hs, -⟩ := ht; exact .tail _ (.refl _) hP hs
    | empty tm' h hj ht h0 => rw [show tm' = s.tm from ht.1]; exact .refl _
    | stop tm' h hj ht h0 => rw [show tm' = s.tm from ht.1]; exact .refl _
    | _ => exact .refl _
  · exact .tail _ (.refl _) h.1 h.2

/-- **C62, refinement.** Every run of `LegacyParallel` over the taskmaster is a run of the taskmaster, so C01–C10 hold for it. -/
theorem C62_legacy_refines_taskmaster {C : Cfg V} {P : St V → Lab V → Prop} {orig : List V} {max : Nat} {s : Leg (St V) V}
    (h : LegReach (tmi C P) (St.init orig) max s) : TM.Reach C P orig s.tm := by
  induction h with
  | refl => exact .refl _
  | tail _ h ih => exact Steps.trans ih (legNext_tm h)

/-- The taskmaster's outstanding tasks are exactly those handed out and not retired. -/
theorem legacy_agrees {C : Cfg V} {P : St V → Lab V → Prop} {orig : List V} {max : Nat} (hm : 1 ≤ max) {s : Leg (St V) V}
    (h : LegReach (tmi C P) (St.init orig) max s) : s.given = s.retired.map Prod.fst + (s.tm.active : Multiset V) := by
  induction h with
  | refl => simp [Leg.init, St.init]
  | @tail a b hr h ih =>
    rcases h with h | ⟨tm', h, rfl⟩
    · cases h with
      | retire k ok tm' h ht =>
        obtain ⟨res, post, hP, -, hs⟩ := ht
        obtain ⟨h1, h2⟩ := finish_active hs
        show a.given = ((k, ok) ::ₘ a.retired).map Prod.fst + (tm'.active : Multiset V)
        rw [h2, ih, Multiset.map_cons, Multiset.cons_add, ← Multiset.coe_erase, ← Multiset.add_cons, Multiset.cons_erase (by simpa using h1)]
      | internal tm' h hj ht =>
        obtain ⟨l, hP, -, hs, h1⟩ := ht
        show a.given = a.retired.map Prod.fst + (tm'.active : Multiset V)
        rw [h1]; exact ih
      | give k tm' h hj ht =>
        obtain ⟨l, hP, -, hs, h1⟩ := ht
        show k ::ₘ a.given = a.retired.map Prod.fst + (tm'.active : Multiset V)
        rw [h1, ih, ← Multiset.cons_coe, Multiset.add_cons]
      | empty tm' h hj ht h0 =>
        show a.given = a.retired.map Prod.fst + (tm'.active : Multiset V)
        rw [show tm' = a.tm from ht.1]; exact ih
      | stop tm' h hj ht h0 =>
        show a.given = a.retired.map Prod.fst + (tm'.active : Multiset V)
        rw [show tm' = a.tm from ht.1]; exact ih
      | _ => exact ih
    · show a.given = a.retired.map Prod.fst + (tm'.active : Multiset V)
      have : tm'.active = a.tm.active := by
        have := h.2; simp only [TM.step, Option.some.injEq] at this; rw [← this]
      rw [this]; exact ih

/-- **C62**: when the main thread has left its loop, the taskmaster's walk is over. -/
theorem C62_legacy_over {C : Cfg V} {P : St V → Lab V → Prop} {orig : List V} {max : Nat} (hm : 1 ≤ max) {s : Leg (St V) V}
    (h : LegReach (tmi C P) (St.init orig) max s) (hl : ¬ s.pc.live) : s.tm.over := by
  have h1 := legacy_agrees hm h
  have h2 := ((C62_no_task_lost_or_retired_twice hm h).2 hl).1
  rw [h2] at h1
  have hact : s.tm.active = [] := by simpa using h1
  suffices hs : s.tm.cands = [] ∧ (s.tm.tops = [] ∨ s.tm.stopped = true) from ⟨hs.1, hs.2, hact⟩
  clear h1 h2 hact
  induction h with
  | refl => exact absurd trivial hl
  | @tail a b hr h ih =>
    rcases h with h | ⟨tm', h, rfl⟩
    · cases h with
      | retire k ok tm' h ht => exfalso; apply hl; dsimp only; split <;> trivial
      | internal tm' h hj ht => exact absurd (by rw [show a.pc = _ from h]; trivial) hl
      | give k tm' h hj ht => exact absurd (by rw [show a.pc = _ from h]; trivial) hl
      | empty tm' h hj ht h0 => exact absurd trivial hl
      | stop tm' h hj ht h0 =>
        show tm'.cands = [] ∧ (tm'.tops = [] ∨ tm'.stopped = true)
        rw [show tm' = a.tm from ht.1]; exact ht.2
      | full h hj => exact absurd trivial hl
      | get k ok rest h hr => exact absurd trivial hl
      | cleanup h => exact ih (by rw [h]; exact fun x => x)
      | join h => exact ih (by rw [h]; exact fun x => x)
      | _ => exact ih hl
    · obtain ⟨h1, -⟩ := ih hl
      have h3 := h.2
      simp only [TM.step, Option.some.injEq] at h3
      rw [← h3]; exact ⟨h1, Or.inr rfl⟩

theorem legacy_live {C : Cfg V} {orig : List V} {max : Nat} (hm : 1 ≤ max) {s : Leg (St V) V}
    {P : St V → Lab V → Prop} (hP : Ample P)
    (h : LegReach (tmi C P) (St.init orig) max s) : LLive (tmi C P) s where
  retire := by
    intro k ok hp
    have hk : k ∈ s.tm.active := by
      have h1 := legacy_agrees hm h
      have h2 := (h.inv hm).1.given
      rw [h1, hp, add_assoc] at h2
      have h3 := add_left_cancel h2
      have : k ∈ (s.tm.active : Multiset V) := by rw [h3]; simp [MPC.tasks]
      simpa using this
    cases ok with
    | true =>
      obtain ⟨post, S', h1⟩ := postprocess_possible C (TM.executed C { s.tm with active := s.tm.active.erase k, clock := s.tm.clock + 1 } (C.targets k)) (C.targets k)
      exact ⟨S', none, post, hP.ok _ _ _, by simp, by simp only [TM.step, if_pos hk]; exact h1⟩
    | false =>
      obtain ⟨post, S', h1⟩ := failTask_possible C { s.tm with active := s.tm.active.erase k, clock := s.tm.clock + 1 } (C.targets k) .stop
      exact ⟨S', some .stop, post, hP.failed _ _ _, by simp, by simp only [TM.step, if_pos hk]; exact h1⟩
  next := tm_next C hP s.tm

/-- **C62**: `LegacyParallel` with the taskmaster never deadlocks. -/
theorem C62_no_deadlock_with_taskmaster {C : Cfg V} {orig : List V} {max : Nat} (hm : 1 ≤ max) {s : Leg (St V) V}
    {P : St V → Lab V → Prop} (hP : Ample P) (h : LegReach (tmi C P) (St.init orig) max s) : s.pc = .halted ∨ ∃ s', LegStep (tmi C P) s s' :=
  C62_no_deadlock hm h (legacy_live hm hP h)

/-! ## `Serial` with the taskmaster -/

theorem ser_agrees {C : Cfg V} {P : St V → Lab V → Prop} {orig : List V} {s : Ser (St V) V} (h : SerReach (tmi C P) (St.init orig) s) :
    TM.Reach C P orig s.tm ∧ (match s.pc with | .exec k => s.tm.active = [k] | _ => s.tm.active = []) ∧
    (s.pc = .done → s.tm.cands = [] ∧ (s.tm.tops = [] ∨ s.tm.stopped = true)) ∧
    s.retired = s.execd ∧ s.given = s.retired.map Prod.fst + (s.tm.active : Multiset V) := by
  induction h with
  | refl => exact ⟨.refl _, rfl, fun h => (by cases h), rfl, by simp [St.init]⟩
  | @tail a b hr h ih =>
    obtain ⟨i1, i2, i3, i4, i5⟩ := ih
    cases h with
    | internal tm' h ht =>
      obtain ⟨l, hP, -, hs, h1⟩ := ht
      refine ⟨.tail _ i1 hP hs, ?_, fun hd => (by rw [show a.pc = _ from h] at hd; cases hd), i4, ?_⟩
      · show (match a.pc with | .exec k => tm'.active = [k] | _ => tm'.active = [])
        rw [h1]; exact i2
      · show a.given = _ + (tm'.active : Multiset V); rw [h1]; exact i5
    | give k tm' h ht =>
      obtain ⟨l, hP, -, hs, h1⟩ := ht
      rw [h] at i2
      refine ⟨.tail _ i1 hP hs, ?_, fun hd => (by cases hd), i4, ?_⟩
      · show tm'.active = [k]; rw [h1, show a.tm.active = [] from i2]
      · show k ::ₘ a.given = _ + (tm'.active : Multiset V)
        rw [h1, i5, ← Multiset.cons_coe, Multiset.add_cons]
    | finish k ok tm' h ht =>
      obtain ⟨res, post, hP, -, hs⟩ := ht
      obtain ⟨h1, h2⟩ := finish_active hs
      rw [h] at i2
      have i2' : a.tm.active = [k] := i2
      refine ⟨.tail _ i1 hP hs, ?_, fun hd => (by cases hd), by rw [i4], ?_⟩
      · show tm'.active = []; rw [h2, i2']; simp
      · show a.given = ((k, ok) ::ₘ a.retired).map Prod.fst + (tm'.active : Multiset V)
        rw [h2, i5, Multiset.map_cons, Multiset.cons_add, ← Multiset.coe_erase, ← Multiset.add_cons, Multiset.cons_erase (by simpa using h1)]
    | stop tm' h ht =>
      rw [h] at i2
      have e : tm' = a.tm := ht.1
      refine ⟨by rw [e]; exact i1, ?_, fun _ => ?_, i4, ?_⟩
      · show tm'.active = []; rw [e]; exact i2
      · show tm'.cands = [] ∧ _; rw [e]; exact ht.2
      · show a.given = _ + (tm'.active : Multiset V); rw [e]; exact i5
    | signal tm' ht =>
      have h3 := ht.2
      simp only [TM.step, Option.some.injEq] at h3
      have e : tm'.active = a.tm.active := by rw [← h3]
      refine ⟨.tail _ i1 ht.1 ht.2, ?_, fun hd => ?_, i4, ?_⟩
      · show (match a.pc with | .exec k => tm'.active = [k] | _ => tm'.active = [])
        rw [e]; exact i2
      · have := (i3 hd).1; rw [← h3]; exact ⟨this, .inr rfl⟩
      · show a.given = _ + (tm'.active : Multiset V); rw [e]; exact i5

/-- **C62, `Serial`**: a run of the serial scheduler is a run of the taskmaster in which at most one task is outstanding; every task executed is retired at once with
the outcome of its execution; and when the scheduler returns, the walk is over. -/
theorem C62_serial {C : Cfg V} {P : St V → Lab V → Prop} {orig : List V} {s : Ser (St V) V} (h : SerReach (tmi C P) (St.init orig) s) :
    TM.Reach C P orig s.tm ∧ s.tm.active.length ≤ 1 ∧ s.retired = s.execd ∧ (s.pc = .done → s.tm.over ∧ s.given = s.retired.map Prod.fst) := by
  obtain ⟨h1, h2, h3, h4, h5⟩ := ser_agrees h
  refine ⟨h1, ?_, h4, fun hd => ?_⟩
  · cases hp : s.pc <;> (rw [hp] at h2; dsimp only at h2; rw [h2]; simp)
  · rw [hd] at h2
    have h2' : s.tm.active = [] := h2
    exact ⟨⟨(h3 hd).1, (h3 hd).2, h2'⟩, by rw [h5, h2']; simp⟩

/-- **C62, `Serial` goes on** until it returns. -/
theorem C62_serial_no_deadlock {C : Cfg V} {orig : List V} {s : Ser (St V) V} {P : St V → Lab V → Prop} (hP : Ample P)
    (h : SerReach (tmi C P) (St.init orig) s) (hp : s.pc ≠ .done) : ∃ s', SerStep (tmi C P) s s' := by
  cases hpc : s.pc with
  | done => exact absurd hpc hp
  | loop =>
    rcases tm_next C hP s.tm with ⟨t', ht⟩ | ⟨k, t', ht⟩ | ⟨t', ht⟩
    · exact ⟨_, .internal t' hpc ht⟩
    · exact ⟨_, .give k t' hpc ht⟩
    · exact ⟨_, .stop t' hpc ht⟩
  | exec k =>
    obtain ⟨-, h2, -⟩ := ser_agrees h
    rw [hpc] at h2
    have hk : k ∈ s.tm.active := by rw [show s.tm.active = [k] from h2]; simp
    obtain ⟨post, S', h1⟩ := postprocess_possible C (TM.executed C { s.tm with active := s.tm.active.erase k, clock := s.tm.clock + 1 } (C.targets k)) (C.targets k)
    exact ⟨_, .finish k true S' hpc ⟨none, post, hP.ok _ _ _, by simp, by simp only [TM.step, if_pos hk]; exact h1⟩⟩

end Verif.Pool
