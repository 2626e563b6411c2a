import Verif.Pool.Inv
import Mathlib.Order.WellFounded
import Mathlib.Data.Prod.Lex

/-!
# C11–C14: the parallel scheduler

Each theorem is about every state reachable by any interleaving, for any number of workers and any behaviour of the
taskmaster.
-/

namespace Verif.Pool

variable {T K : Type}

/-- The worker runs `task.execute()`. -/
def PC.isExec : PC K → Bool
  | .exec _ => true
  | _ => false

/-- **C11.** At no time do more than `max` workers execute a task (`-jN`: `max = N ≥ 1`); in fact at no time do more than `max`
workers exist. -/
theorem C11_at_most_N_jobs {M : TMI T K} {tm : T} {max : Nat} (hmax : 1 ≤ max) {s : Pool T K} (h : Reach M tm max s) :
    (s.pcs.filter PC.isExec).length ≤ max ∧ s.pcs.length ≤ max := by
  have h1 := h.inv.len (by rw [h.max_eq]; exact hmax)
  rw [h.max_eq] at h1
  exact ⟨le_trans (List.length_filter_le _ _) h1, h1⟩

/-- **C14.** At most one worker is in the critical section, i.e. calls `next_task`, `prepare`, `executed`, `failed`, `postprocess` or touches
`jobs`/`state`; and while one searches the shared state says so. -/
theorem C14_one_thread_at_a_time {M : TMI T K} {tm : T} {max : Nat} {s : Pool T K} (h : Reach M tm max s) {i j : Nat} {p q : PC K}
    (hi : s.pcs[i]? = some p) (hj : s.pcs[j]? = some q) (hp : p.holds) (hq : q.holds) : i = j :=
  h.inv.alone hj hq hi hp

/-- **C13.** At any time the tasks handed out for execution are exactly: those retired, those waiting in the results queue, and those
some worker carries — so none is lost and none is retired twice; and what is retired as executed/failed is what its execution
returned. When the walk is marked complete, every task handed out was executed and retired. -/
theorem C13_no_task_lost_or_retired_twice {M : TMI T K} {tm : T} {max : Nat} {s : Pool T K} (h : Reach M tm max s) :
    s.given = s.retired.map Prod.fst + (s.results : Multiset (K × Bool)).map Prod.fst + (s.pcs.map PC.tasks).sum ∧
    s.execd = s.retired + (s.results : Multiset (K × Bool)) + (s.pcs.map PC.outcomes).sum ∧
    s.retired ≤ s.execd ∧ s.execd.map Prod.fst ≤ s.given := by
  have hi := h.inv
  refine ⟨hi.given, hi.execd, ?_, ?_⟩
  · rw [hi.execd, add_assoc]; exact Multiset.le_add_right _ _
  · rw [hi.execd, hi.given, Multiset.map_add, Multiset.map_add]
    refine add_le_add_right ?_ _
    induction s.pcs with
    | nil => simp
    | cons p l ih =>
      simp only [List.map_cons, List.sum_cons, Multiset.map_add]
      refine add_le_add ?_ ih
      rcases p with _ | _ | _ | _ | _ | _ | (_ | _) | _ | _ | _ <;> simp [PC.outcomes, PC.tasks]

theorem C13_all_retired_when_complete {M : TMI T K} {tm : T} {max : Nat} {s : Pool T K} (h : Reach M tm max s)
    (hc : s.st = .completed) : s.retired = s.execd ∧ s.retired.map Prod.fst = s.given := by
  have hi := h.inv
  obtain ⟨h1, h2⟩ := hi.toAcc.idle (hi.compl hc).1
  have h3 := hi.given
  have hle := (C13_no_task_lost_or_retired_twice h).2.2
  rw [h1, h2] at h3
  simp only [Multiset.coe_nil, Multiset.map_zero, add_zero] at h3
  refine ⟨Multiset.eq_of_le_of_card_le hle.1 ?_, h3.symm⟩
  have h4 := Multiset.card_le_card hle.2
  rw [h3] at h4
  simpa using h4

/-- … in particular when some worker has left the loop. -/
theorem C13_all_retired_when_a_worker_left {M : TMI T K} {tm : T} {max : Nat} {s : Pool T K} (h : Reach M tm max s)
    {i : Nat} (hh : s.pcs[i]? = some .halted) : s.retired = s.execd ∧ s.retired.map Prod.fst = s.given :=
  C13_all_retired_when_complete h (h.inv.halt i hh)

/-! ## C12 -/

theorem unstall_ready {st : JState} : ∀ {d}, unstall st d = .searching ∨ unstall st d = .stalled ∨ unstall st d = .completed ∨
    unstall st d = .ready := by
  intro d; cases unstall st d <;> simp

/-- the tasks of a worker that is neither waiting nor gone -/
theorem exists_live {s : Pool T K} (hi : Inv s) (hst : s.st = .stalled ∨ s.st = .ready ∨ s.st = .searching)
    (hne : s.st = .ready → s.pcs ≠ []) :
    ∃ (i : Nat) (p : PC K), s.pcs[i]? = some p ∧ p ≠ .waiting ∧ p ≠ .halted := by
  rcases hst with hst | hst | hst
  · have hj := hi.stall hst
    have hl := hi.toAcc.load
    by_cases hr : s.results = []
    · have hs : (s.pcs.map PC.tasks).sum ≠ 0 := by
        intro h0; rw [hr, h0] at hl; simp at hl; exact hj hl
      by_contra hcon
      apply hs
      have hall : ∀ p ∈ s.pcs, p = .waiting ∨ p = .halted := by
        intro p hp
        obtain ⟨i, hp⟩ := List.mem_iff_getElem?.1 hp
        by_contra h2
        exact hcon ⟨i, p, hp, fun h3 => h2 (Or.inl h3), fun h3 => h2 (Or.inr h3)⟩
      have : ∀ l : List (PC K), (∀ p ∈ l, p = .waiting ∨ p = .halted) → (l.map PC.tasks).sum = 0 := by
        intro l hl
        induction l with
        | nil => simp
        | cons p l ih =>
          have h1 := ih (fun q hq => hl q (List.mem_cons_of_mem _ hq))
          rcases hl p (by simp) with rfl | rfl <;> simp [PC.tasks, h1]
      exact this _ hall
    · obtain ⟨i, h1⟩ := hi.res hr
      rcases h1 with h1 | h1 <;> exact ⟨i, _, h1, by simp, by simp⟩
  · rcases hi.ready hst with ⟨i, p, h1, h2⟩ | ⟨h1, h2⟩
    · exact ⟨i, p, h1, by rintro rfl; exact h2, by rintro rfl; exact h2⟩
    · cases hp : s.pcs[0]? with
      | none => exact absurd (by simpa using hp) (hne hst)
      | some p =>
        have := h1 0 p hp
        exact ⟨0, p, hp, by rintro rfl; exact this, by rintro rfl; exact this⟩
  · obtain ⟨i, p, h1, h2⟩ := hi.srch' hst
    exact ⟨i, p, h1, by rintro rfl; exact h2, by rintro rfl; exact h2⟩

theorem Soft.ne_nil {a b : List (PC K)} (h : Soft a b) (ha : a ≠ []) : b ≠ [] := by
  intro hb; have := h.len; rw [hb] at this; exact ha (List.eq_nil_of_length_eq_zero (by simpa using this))

theorem Reach.pcs_ne {M : TMI T K} {tm : T} {max : Nat} {s : Pool T K} (h : Reach M tm max s) : s.pcs ≠ [] := by
  induction h with
  | refl => simp [Pool.init]
  | tail _ h ih =>
    rcases h with h | ⟨tm', -, rfl⟩
    · cases h with
      | give i k tm' pcs' h hst ht hn =>
        exact (Soft.trans (Notified.soft hn) (maybeStart_soft _ _ pcs')).ne_nil (by simpa using ih)
      | complete i tm' h hst ht hj => exact (wakeAll_soft _).ne_nil (by simpa using ih)
      | _ => simpa using ih
    · exact ih

/-- What the taskmaster must be able to do in state `s` for the scheduler to go on: retire any task that was handed out and not retired yet,
and answer `next_task()`. -/
structure TMI.Live (M : TMI T K) (s : Pool T K) : Prop where
  retire : ∀ k ok, k ∈ s.given → (∃ (i : Nat) (rs : List (K × Bool)), s.pcs[i]? = some (.retire ((k, ok) :: rs))) → ∃ t', M.retire s.tm k ok t'
  next : (∃ t', M.internal s.tm t') ∨ (∃ k t', M.give s.tm k t') ∨ (∃ t', M.empty s.tm t')

/-- **C12, no deadlock.** In every reachable state, unless all workers have left the loop, some worker can take a step. -/
theorem C12_no_deadlock {M : TMI T K} {tm : T} {max : Nat} {s : Pool T K} (h : Reach M tm max s) (hl : M.Live s) :
    (∀ p ∈ s.pcs, p = .halted) ∨ ∃ s', Step M s s' := by
  have hi := h.inv
  -- a worker that is neither waiting nor gone can move
  have hmove : ∀ (i : Nat) (p : PC K), s.pcs[i]? = some p → p ≠ .waiting → p ≠ .halted → ∃ s', Step M s s' := by
    have hlocked : ∀ (i : Nat) (p : PC K), s.pcs[i]? = some p → p.holds → ∃ s', Step M s s' := by
      intro i p hp hh
      cases p with
      | check d =>
        rcases unstall_ready (st := s.st) (d := d) with h1 | h1 | h1 | h1
        · exact ⟨_, .wait i d hp (Or.inl h1)⟩
        · exact ⟨_, .wait i d hp (Or.inr h1)⟩
        · exact ⟨_, .halt i d hp h1⟩
        · exact ⟨_, .begin i d hp h1⟩
      | retire rs =>
        cases rs with
        | nil => exact ⟨_, .retired i hp⟩
        | cons r rs =>
          obtain ⟨k, ok⟩ := r
          have hk : k ∈ s.given := by
            rw [hi.given, Multiset.mem_add]
            right
            have : ∀ (l : List (PC K)) (i : Nat), l[i]? = some (.retire ((k, ok) :: rs)) → k ∈ (l.map PC.tasks).sum := by
              intro l
              induction l with
              | nil => intro i h; simp at h
              | cons p l ih =>
                intro i h
                rw [List.map_cons, List.sum_cons, Multiset.mem_add]
                cases i with
                | zero => simp only [List.getElem?_cons_zero, Option.some.injEq] at h; subst h; left; simp [PC.tasks]
                | succ i => right; exact ih i (by simpa using h)
            exact this _ i hp
          obtain ⟨t', ht⟩ := hl.retire k ok hk ⟨i, rs, hp⟩
          exact ⟨_, .retire i k ok rs t' hp ht⟩
      | search =>
        have hst := hi.srch i _ hp trivial
        rcases hl.next with ⟨t', ht⟩ | ⟨k, t', ht⟩ | ⟨t', ht⟩
        · exact ⟨_, .internal i t' hp hst ht⟩
        · by_cases hw : ∃ j : Nat, (s.pcs.set i (.release (some k)))[j]? = some .waiting
          · obtain ⟨j, hj⟩ := hw
            exact ⟨_, .give i k t' _ hp hst ht (Or.inl ⟨j, hj, rfl⟩)⟩
          · exact ⟨_, .give i k t' _ hp hst ht (Or.inr ⟨fun j hj => hw ⟨j, hj⟩, rfl⟩)⟩
        · by_cases hj : s.jobs = 0
          · exact ⟨_, .complete i t' hp hst ht hj⟩
          · exact ⟨_, .stall i t' hp hst ht hj⟩
      | release t =>
        cases t with
        | none => exact ⟨_, .releaseIdle i hp⟩
        | some k => exact ⟨_, .releaseExec i k hp⟩
      | _ => exact hh.elim
    intro i p hp hw hh
    cases hlk : s.lock with
    | some j =>
      obtain ⟨q, hq, hqh⟩ := hi.held j hlk
      exact hlocked j q hq hqh
    | none =>
      cases p with
      | top d => exact ⟨_, .acquire i d hp hlk⟩
      | woken => exact ⟨_, .reacquire i hp hlk⟩
      | waiting => exact absurd rfl hw
      | halted => exact absurd rfl hh
      | exec k => exact ⟨_, .execute i k true hp⟩
      | enqueue k ok => exact ⟨_, .enqueue i k ok hp⟩
      | check d => exact hlocked i _ hp trivial
      | retire rs => exact hlocked i _ hp trivial
      | search => exact hlocked i _ hp trivial
      | release t => exact hlocked i _ hp trivial
  by_cases hc : s.st = .completed
  · by_cases ha : ∀ p ∈ s.pcs, p = .halted
    · exact Or.inl ha
    · right
      rw [not_forall] at ha
      obtain ⟨p, hp⟩ := ha
      rw [Classical.not_imp] at hp
      obtain ⟨i, hpi⟩ := List.mem_iff_getElem?.1 hp.1
      exact hmove i p hpi (by rintro rfl; exact (hi.compl hc).2 i hpi) hp.2
  · right
    have hst : s.st = .stalled ∨ s.st = .ready ∨ s.st = .searching := by
      cases hs : s.st <;> simp_all
    obtain ⟨i, p, hp, h1, h2⟩ := exists_live hi hst (fun _ => h.pcs_ne)
    exact hmove i p hp h1 h2

/-- **C12, no lost wake-up / no idle slot.** Whenever the scheduler is ready to search for more work, some worker is on its way to do
that without finishing an execution first — or all `max` workers are busy executing tasks. -/
theorem C12_work_conserving {M : TMI T K} {tm : T} {max : Nat} (hmax : 1 ≤ max) {s : Pool T K} (h : Reach M tm max s)
    (hst : s.st = .ready) :
    (∃ (i : Nat) (p : PC K), s.pcs[i]? = some p ∧ p.coming) ∨
    ((∀ (i : Nat) p, s.pcs[i]? = some p → p.busy) ∧ s.pcs.length = max) := by
  rcases h.inv.ready hst with h1 | ⟨h1, h2⟩
  · exact Or.inl h1
  · refine Or.inr ⟨h1, ?_⟩
    rw [h2 (by rw [h.max_eq]; exact hmax), h.max_eq]

/-- **C12, results are not left behind.** If a finished task waits in the results queue, the walk is not marked complete, and a worker that
will retire it without waiting is about to enter. -/
theorem C12_results_are_collected {M : TMI T K} {tm : T} {max : Nat} {s : Pool T K} (h : Reach M tm max s) (hr : s.results ≠ []) :
    s.st ≠ .completed ∧ ∃ i : Nat, s.pcs[i]? = some (.top true) ∨ s.pcs[i]? = some (.check true) :=
  ⟨fun hc => hr (h.inv.toAcc.idle (h.inv.compl hc).1).1, h.inv.res hr⟩

/-- **C12, one worker.** With `-j1` the (fake) condition variable is never waited on: `FakeCondition.wait`, which would be a fatal error
(`Job.py:464-465`), is unreachable. -/
theorem C12_single_worker_never_waits {M : TMI T K} {tm : T} {s : Pool T K} (h : Reach M tm 1 s) {i : Nat} {d : Bool}
    (hp : s.pcs[i]? = some (.check d)) : unstall s.st d = .ready ∨ unstall s.st d = .completed := by
  have hi := h.inv
  have hlen := (C11_at_most_N_jobs (le_refl 1) h).2
  have h0 : ∀ (j : Nat) q, s.pcs[j]? = some q → j = 0 := by
    intro j q hq
    have := (List.getElem?_eq_some_iff.1 hq).1
    omega
  have hns := hi.not_searching hp trivial (fun h => h)
  rcases unstall_ready (st := s.st) (d := d) with h1 | h1 | h1 | h1
  · exfalso; unfold unstall at h1; split at h1
    · cases h1
    · exact hns h1
  · exfalso
    have hst : s.st = .stalled ∧ d = false := by
      unfold unstall at h1; split at h1
      · cases h1
      · rename_i h2; exact ⟨h1, by cases d <;> simp_all⟩
    obtain ⟨rfl, rfl⟩ := And.intro (h0 i _ hp) hst.2
    have hl := hi.toAcc.load
    have hj := hi.stall hst.1
    have hr : s.results = [] := by
      by_contra hr
      obtain ⟨j, h2⟩ := hi.res hr
      rcases h2 with h2 | h2 <;> · rw [h0 j _ h2, hp] at h2; cases h2
    have hpcs : s.pcs = [.check false] := by
      cases hl : s.pcs with
      | nil => rw [hl] at hp; simp at hp
      | cons a l =>
        rw [hl] at hp hlen
        have : l = [] := List.eq_nil_of_length_eq_zero (by simp only [List.length_cons] at hlen; omega)
        subst this
        simp only [List.getElem?_cons_zero, Option.some.injEq] at hp
        rw [hp]
    rw [hr, hpcs] at hl
    simp [PC.tasks] at hl
    exact hj hl
  · exact Or.inr h1
  · exact Or.inl h1

/-! ### Termination -/

/-- weight of a program counter -/
def PC.weight : PC K → Nat
  | .halted => 0 | .waiting => 1 | .check false => 2 | .top false => 3 | .woken => 3 | .release none => 4 | .search => 5
  | .retire _ => 6 | .check true => 8 | .top true => 9 | .enqueue _ _ => 10 | .exec _ => 11 | .release (some _) => 12

def JState.weight (n : Nat) : JState → Nat
  | .ready => 10 * n + 6
  | .searching => 10 * n + 1
  | .stalled => 10 * n
  | .completed => 0

def Pool.weight (s : Pool T K) : Nat := (s.pcs.map PC.weight).sum + s.st.weight s.pcs.length

theorem wakeAll_weight (a : List (PC K)) : ((wakeAll a).map PC.weight).sum ≤ (a.map PC.weight).sum + 2 * a.length := by
  induction a with
  | nil => simp [wakeAll]
  | cons p l ih =>
    have h1 : (PC.wake p).weight ≤ p.weight + 2 := by cases p <;> simp [PC.wake, PC.weight]
    simp only [wakeAll, List.map_cons, List.sum_cons, List.length_cons] at ih ⊢
    omega

/-- every step of a worker makes (measure of the taskmaster, weight of the pool) smaller -/
theorem Step.decr {M : TMI T K} {W : Type} {lt : W → W → Prop} {μ : T → W} {s s' : Pool T K}
    (hi : ∀ t', M.internal s.tm t' → lt (μ t') (μ s.tm)) (hg : ∀ k t', M.give s.tm k t' → lt (μ t') (μ s.tm))
    (hr : ∀ k ok t', M.retire s.tm k ok t' → lt (μ t') (μ s.tm)) (he : ∀ t', M.empty s.tm t' → μ t' = μ s.tm ∨ lt (μ t') (μ s.tm))
    (h : Step M s s') : Prod.Lex lt (fun a b : Nat => a < b) (μ s'.tm, s'.weight) (μ s.tm, s.weight) := by
  have same : s'.tm = s.tm → s'.weight < s.weight →
      Prod.Lex lt (fun a b : Nat => a < b) (μ s'.tm, s'.weight) (μ s.tm, s.weight) := by
    intro h1 h2; rw [h1]; exact Prod.Lex.right _ h2
  have less : lt (μ s'.tm) (μ s.tm) → Prod.Lex lt (fun a b : Nat => a < b) (μ s'.tm, s'.weight) (μ s.tm, s.weight) :=
    fun h1 => Prod.Lex.left _ _ h1
  have emp : M.empty s.tm s'.tm → s'.weight < s.weight →
      Prod.Lex lt (fun a b : Nat => a < b) (μ s'.tm, s'.weight) (μ s.tm, s.weight) := by
    intro h1 h2
    rcases he _ h1 with h3 | h3
    · rw [h3]; exact Prod.Lex.right _ h2
    · exact less h3
  cases h with
  | acquire i d h hl =>
    refine same rfl ?_
    have := sum_set PC.weight h (.check d)
    simp only [Pool.weight, List.length_set]
    cases d <;> simp only [PC.weight] at this <;> omega
  | reacquire i h hl =>
    refine same rfl ?_
    have := sum_set PC.weight h (.check false)
    simp only [Pool.weight, List.length_set]
    simp only [PC.weight] at this; omega
  | wait i d h hst =>
    refine same rfl ?_
    have := sum_set PC.weight h .waiting
    have hst' : unstall s.st d = s.st := by
      unfold unstall at hst ⊢; split at hst <;> simp_all
    simp only [Pool.weight, List.length_set, hst']
    cases d <;> simp only [PC.weight] at this <;> omega
  | halt i d h hst =>
    refine same rfl ?_
    have := sum_set PC.weight h .halted
    have hst' : unstall s.st d = s.st := by
      unfold unstall at hst ⊢; split at hst <;> simp_all
    simp only [Pool.weight, List.length_set, hst']
    cases d <;> simp only [PC.weight] at this <;> omega
  | begin i d h hst =>
    refine same rfl ?_
    have := sum_set PC.weight h (.retire s.results)
    simp only [Pool.weight, List.length_set]
    unfold unstall at hst
    split at hst
    · rename_i h1
      rw [h1.1]; rw [h1.2] at this
      simp only [PC.weight, JState.weight] at this ⊢; omega
    · rw [hst]
      cases d <;> simp only [PC.weight, JState.weight] at this ⊢ <;> omega
  | retire i k ok rs tm' h ht => exact less (hr _ _ _ ht)
  | retired i h =>
    refine same rfl ?_
    have := sum_set PC.weight h .search
    simp only [Pool.weight, List.length_set]
    simp only [PC.weight] at this; omega
  | internal i tm' h hst ht => exact less (hi _ ht)
  | give i k tm' pcs' h hst ht hn => exact less (hg _ _ ht)
  | stall i tm' h hst ht hj =>
    refine emp ht ?_
    have := sum_set PC.weight h (.release none)
    simp only [Pool.weight, List.length_set, hst]
    simp only [PC.weight, JState.weight] at this ⊢; omega
  | complete i tm' h hst ht hj =>
    refine emp ht ?_
    have h1 := sum_set PC.weight h (.release none)
    have h2 := wakeAll_weight (s.pcs.set i (.release none))
    have h3 : 0 < s.pcs.length := by
      rcases List.getElem?_eq_some_iff.1 h with ⟨h7, _⟩; omega
    simp only [Pool.weight, hst]
    simp only [List.length_set] at h2
    simp only [PC.weight, JState.weight] at h1 ⊢; omega
  | releaseExec i k h =>
    refine same rfl ?_
    have := sum_set PC.weight h (.exec k)
    simp only [Pool.weight, List.length_set]
    simp only [PC.weight] at this; omega
  | releaseIdle i h =>
    refine same rfl ?_
    have := sum_set PC.weight h (.top false)
    simp only [Pool.weight, List.length_set]
    simp only [PC.weight] at this; omega
  | execute i k ok h =>
    refine same rfl ?_
    have := sum_set PC.weight h (.enqueue k ok)
    simp only [Pool.weight, List.length_set]
    simp only [PC.weight] at this; omega
  | enqueue i k ok h =>
    refine same rfl ?_
    have := sum_set PC.weight h (.top true)
    simp only [Pool.weight, List.length_set]
    simp only [PC.weight] at this; omega

/-- **C12, termination.** If the taskmaster itself cannot go on for ever — its calls that retire or hand out tasks decrease some
well-founded order, and a `next_task()` that returns None does not increase it — then every execution of the worker pool is
finite, for every interleaving (no fairness needed).  With `C12_no_deadlock`: it ends with all workers out of the loop. -/
theorem C12_terminates (M : TMI T K) {W : Type} (lt : W → W → Prop) (hwf : WellFounded lt) (μ : T → W)
    (hi : ∀ t t', M.internal t t' → lt (μ t') (μ t)) (hg : ∀ t k t', M.give t k t' → lt (μ t') (μ t))
    (hr : ∀ t k ok t', M.retire t k ok t' → lt (μ t') (μ t)) (he : ∀ t t', M.empty t t' → μ t' = μ t ∨ lt (μ t') (μ t)) :
    WellFounded (fun s' s : Pool T K => Step M s s') := by
  have hwf2 : WellFounded (Prod.Lex lt (fun a b : Nat => a < b)) := WellFounded.prod_lex hwf Nat.lt_wfRel.wf
  exact Subrelation.wf (r := InvImage (Prod.Lex lt (fun a b : Nat => a < b)) (fun s : Pool T K => (μ s.tm, s.weight)))
    (fun {_ _} h => Step.decr (hi _) (hg _) (hr _) (he _) h) (InvImage.wf _ hwf2)

/-- **C12, everybody leaves.** Once the walk is marked complete it stays so, and no worker waits; so every worker runs out of the
loop (with `C12_no_deadlock` and `C12_terminates`). -/
theorem C12_complete_is_final {M : TMI T K} {tm : T} {max : Nat} {s s' : Pool T K} (h : Reach M tm max s) (hc : s.st = .completed)
    (hs : Step M s s') : s'.st = .completed ∧ (∀ i : Nat, s'.pcs[i]? ≠ some .waiting) ∧ s'.given = s.given ∧ s'.retired = s.retired := by
  have hi := h.inv
  have hi' := hi.step hs
  have hst : s'.st = .completed := by
    cases hs with
    | retire i k ok rs tm' h ht => have := hi.srch i _ h trivial; rw [hc] at this; cases this
    | internal i tm' h hst ht => rw [hc] at hst; cases hst
    | give i k tm' pcs' h hst ht hn => rw [hc] at hst; cases hst
    | stall i tm' h hst ht hj => rw [hc] at hst; cases hst
    | complete i tm' h hst ht hj => rfl
    | wait i d h hst => simp [unstall, hc]
    | halt i d h hst => simp [unstall, hc]
    | begin i d h hst => simp [unstall, hc] at hst
    | _ => exact hc
  refine ⟨hst, (hi'.compl hst).2, ?_⟩
  cases hs with
  | retire i k ok rs tm' h ht => have := hi.srch i _ h trivial; rw [hc] at this; cases this
  | give i k tm' pcs' h hst1 ht hn => rw [hc] at hst1; cases hst1
  | _ => exact ⟨rfl, rfl⟩

end Verif.Pool
