import Verif.TM.FalseCycle
import Verif.TM.Cycle
import Mathlib.Data.Fintype.Order
import Mathlib.Order.WellFounded

/-!
# C01 – C10: properties of the Taskmaster walk

`Steps C P S S'`: some finite sequence of steps leads from `S` to `S'`, each label allowed by `P` in the state where it
is taken.  `Reach` are the runs from the initial state.  Since labels carry scan results, outcomes, failure modes,
orders and interleavings, a theorem about all of `Reach` is a theorem about all of them.
-/

set_option linter.unusedSectionVars false
set_option linter.unusedSimpArgs false
set_option linter.unusedVariables false

namespace Verif.TM
variable {V : Type} [DecidableEq V] [Fintype V]

/-- Sequences of steps with labels restricted by `P`. -/
inductive Steps (C : Cfg V) (P : St V → Lab V → Prop) : St V → St V → Prop
  | refl (S : St V) : Steps C P S S
  | tail {S S' S'' : St V} (l : Lab V) (h : Steps C P S S') (hP : P S' l) (hs : step C S' l = some S'') : Steps C P S S''

/-- States reachable in a build of the requested targets `orig`. -/
def Reach (C : Cfg V) (P : St V → Lab V → Prop) (orig : List V) (S : St V) : Prop := Steps C P (St.init orig) S

/-- A step starts the execution of target `x`: a task for a node of the same executor is given to a job. -/
def Starts (C : Cfg V) (S S' : St V) (x : V) : Prop := ∃ n, S'.active = n :: S.active ∧ x ∈ C.targets n

/-- `b` was reported as a dependency of `a` by some scan so far. -/
def DependsOn (S : St V) (a b : V) : Prop := b ∈ S.seen a

/-- The dependencies reported so far have no cycle. -/
def Acyclic (S : St V) : Prop := ∀ x, ¬ Relation.TransGen (DependsOn S) x x

/-- The assumptions on the project: executors shared consistently; side-effect files have no builder of their own
(enforced by `Environment.py` `SideEffect` and `Builder.py` `_node_errors`) and are neither requested nor listed as prerequisites. -/
structure Project (C : Cfg V) (orig : List V) : Prop where
  wf : C.WF
  iso : C.SEIso
  top : ∀ x ∈ orig, ¬ C.isSE x

/-! ## C01 -/

/-- The node whose task `next_task()` returns in this iteration, if it returns one without a pending exception. -/
def returned (C : Cfg V) (S : St V) (alt : List V) (scan : Scan V) (pushed : List V) : Option V :=
  if S.stopped then none else
  match nextCandidate S alt with
  | none => none
  | some (S1, n) =>
    match considerNode C S1 n scan pushed with
    | some (_, .ready) => some n
    | _ => none

/-- **C01.** From *any* state: when `next_task()` returns a task for node `n`, the scan of `n` succeeded, and every
prerequisite and every dependency it returned is already up to date or executed at that moment. -/
theorem C01_dependencies_finished_when_returned {C : Cfg V} {S : St V} {alt pushed : List V} {scan : Scan V} {n : V}
    (h : returned C S alt scan pushed = some n) :
    ∃ kids, scan = .ok kids ∧ ∀ c ∈ C.prereqs n ++ kids, (S.state c).done := by
  unfold returned at h
  split at h
  · cases h
  split at h
  · cases h
  rename_i S1 k hnc
  split at h
  · rename_i S2 hcn
    simp only [Option.some.injEq] at h; subst h
    obtain ⟨kids, hk, hr, hst, hdone, -⟩ := considerNode_ready hcn
    refine ⟨kids, hk, fun c hc => ?_⟩
    have h1 := hdone c hc
    rw [hst] at h1
    rw [← (nextCandidate_fields hnc).1]
    simp only [markPending, upd] at h1
    split at h1
    · exact h1.elim
    · exact h1
  · cases h

/-- **C01 (execution).** From any state: if a step starts the execution of `x`, then it is an iteration of the search whose
scan of (the executor of) `x` returned only nodes that were already finished before the step. -/
theorem C01_dependencies_finished_before_start {C : Cfg V} {S S' : St V} {l : Lab V} (h : step C S l = some S') {x : V}
    (hx : Starts C S S' x) :
    ∃ n alt kids pushed fate post, l = .consider alt (.ok kids) pushed fate post ∧ x ∈ C.targets n ∧
      ∀ c ∈ C.prereqs n ++ kids, (S.state c).done := by
  obtain ⟨n, hact, hxn⟩ := hx
  have hlen : S'.active ≠ S.active := by
    intro e; rw [e] at hact; exact absurd (congrArg List.length hact) (by simp)
  cases l with
  | consider alt scan pushed fate post =>
    have hret : returned C S alt scan pushed = some n := by
      simp only [TM.step] at h
      unfold returned
      split at h
      · cases h
      rename_i hst
      rw [if_neg hst]
      split at h
      · cases h
      rename_i S1 k hnc
      rw [hnc]
      have ga := nextCandidate_active hnc
      simp only
      split at h
      · cases h
      · rename_i S2 hcn
        simp only [Option.some.injEq] at h
        exfalso; apply hlen; rw [← h]; exact (considerNode_state hcn).1.trans ga
      · rename_i S2 hcn
        split at h
        · rename_i m
          rw [Option.map_eq_some_iff] at h
          obtain ⟨S3, hS3, rfl⟩ := h
          rcases handOut_active hS3 with ⟨r0, _⟩ | ⟨_, r1, _⟩
          · cases r0
          · exfalso; apply hlen; exact r1.trans ((considerNode_state hcn).1.trans ga)
        · cases h
      · rename_i S2 hcn
        rw [hcn]
        rw [Option.map_eq_some_iff] at h
        obtain ⟨S3, hS3, rfl⟩ := h
        rcases handOut_active hS3 with ⟨_, r1, _⟩ | ⟨_, r1, _⟩
        · have h2 : n :: S.active = k :: S2.active := hact.symm.trans r1
          simp only [List.cons.injEq] at h2
          rw [h2.1]
        · exfalso; apply hlen; exact r1.trans ((considerNode_state hcn).1.trans ga)
    obtain ⟨kids, rfl, hd⟩ := C01_dependencies_finished_when_returned hret
    exact ⟨n, alt, kids, pushed, fate, post, rfl, hxn, hd⟩
  | finish k res post =>
    exfalso
    simp only [TM.step] at h
    split at h
    case isFalse => cases h
    have : S'.active = S.active.erase k := by
      split at h
      · exact (postprocess_failedTasks h).2.2.1
      · exact (failTask_fields h).2.2.1
    rw [this] at hact
    have h1 := congrArg List.length hact
    have h2 := List.length_erase_le (a := k) (l := S.active)
    simp only [List.length_cons] at h1; omega
  | flush =>
    exfalso
    simp only [TM.step] at h
    split at h
    · simp only [Option.some.injEq] at h; apply hlen; rw [← h]; rfl
    · cases h
  | interrupt =>
    exfalso
    simp only [TM.step, Option.some.injEq] at h; apply hlen; rw [← h]

/-! ## Invariants of reachable states -/

theorem Steps.trans {C : Cfg V} {P : St V → Lab V → Prop} {S S' S'' : St V} (h : Steps C P S S') (h' : Steps C P S' S'') :
    Steps C P S S'' := by
  induction h' with
  | refl => exact h
  | tail l _ hP hs ih => exact .tail l ih hP hs

theorem Steps.mono {C : Cfg V} {P P' : St V → Lab V → Prop} (hp : ∀ S l, P S l → P' S l) {S S' : St V} (h : Steps C P S S') :
    Steps C P' S S' := by
  induction h with
  | refl => exact .refl _
  | tail l _ hP hs ih => exact .tail l ih (hp _ _ hP) hs

theorem Steps.inv {C : Cfg V} {P : St V → Lab V → Prop} {I : St V → Prop} (hI : ∀ S l S', I S → P S l → step C S l = some S' → I S')
    {S S' : St V} (h : Steps C P S S') (h0 : I S) : I S' := by
  induction h with
  | refl => exact h0
  | tail l _ hP hs ih => exact hI _ _ _ ih hP hs

/-- Labels of ordinary builds: no scan reports a side-effect file as a dependency. -/
def PlainLab (C : Cfg V) (_ : St V) (l : Lab V) : Prop := l.noSE C

/-- … and a re-scan of a node never forgets a dependency an earlier scan reported (SCons caches `implicit`, so it holds
unless the list of *explicit* dependencies shrinks during the build). -/
def StableLab (C : Cfg V) (S : St V) (l : Lab V) : Prop := l.noSE C ∧ l.scanGrows C S

/-- … and no failure is ignored (`-i` absent). -/
def StableNoIgnore (C : Cfg V) (S : St V) (l : Lab V) : Prop := l.noSE C ∧ l.scanGrows C S ∧ l.noIgnore

theorem Reach.inv {C : Cfg V} {P : St V → Lab V → Prop} {orig : List V} {S : St V} (hp : Project C orig)
    (hP : ∀ S l, P S l → l.noSE C) (h : Reach C P orig S) : Inv C orig S :=
  Steps.inv (I := Inv C orig) (fun S l S' hi hl hs => Inv.step hp.wf hp.iso hi (hP _ _ hl) hs) h (Inv.init hp.top)

theorem Reach.mi {C : Cfg V} {P : St V → Lab V → Prop} {orig : List V} {S : St V} (hp : Project C orig) {ni : Prop}
    (hP : ∀ S l, P S l → l.noSE C ∧ l.scanGrows C S ∧ (ni → l.noIgnore)) (h : Reach C P orig S) :
    Inv C orig S ∧ MI C ni S :=
  Steps.inv (I := fun S => Inv C orig S ∧ MI C ni S)
    (fun S l S' hi hl hs => ⟨Inv.step hp.wf hp.iso hi.1 (hP _ _ hl).1 hs,
      MI.step hp.wf hp.iso hi.1 hi.2 (hP _ _ hl).1 (hP _ _ hl).2.1 (hP _ _ hl).2.2 hs⟩) h ⟨Inv.init hp.top, MI.init⟩

/-- **C01 (whole run).** In every reachable state of a run with stable scans, everything that any scan ever reported as
a dependency of a target whose execution was started is finished, and stays so. -/
theorem C01_dependencies_of_started_are_finished {C : Cfg V} {orig : List V} {S : St V} (hp : Project C orig)
    (h : Reach C (StableLab C) orig S) {x c : V} (hx : x ∈ S.started) (hc : DependsOn S x c) : (S.state c).done := by
  obtain ⟨hi, hm⟩ := Reach.mi (ni := False) hp (fun S l hl => ⟨hl.1, hl.2, False.elim⟩) h
  exact (hm.inv.deps x (hi.startedRest.nse x hx) (Or.inl hx) c hc).1

/-! ## C02 -/

/-- the history variable `started` records what `Starts` says -/
theorem started_of_step {C : Cfg V} {S S' : St V} {l : Lab V} (h : step C S l = some S') :
    (S'.started = S.started ∧ ∀ x, ¬ Starts C S S' x) ∨
    ∃ n, S'.active = n :: S.active ∧ S'.started = C.targets n ++ S.started ∧
      (S.state n).rank ≤ 1 ∧ ∀ m ∈ C.targets n, S'.state m = .executing := by
  have hne : ∀ {a b : List V}, a = b → ∀ n, a ≠ n :: b := by
    intro a b e n e2; rw [e] at e2; exact absurd (congrArg List.length e2) (by simp)
  cases l with
  | consider alt scan pushed fate post =>
    simp only [TM.step] at h
    split at h
    · cases h
    split at h
    · cases h
    rename_i S1 k hnc
    have ga := nextCandidate_active hnc
    obtain ⟨g1, g2, g3, -⟩ := nextCandidate_fields hnc
    have hcs : ∀ {S2 o}, considerNode C S1 k scan pushed = some (S2, o) → S2.started = S.started := by
      intro S2 o hcn
      unfold considerNode at hcn
      split at hcn
      · simp only [Option.some.injEq, Prod.mk.injEq] at hcn; rw [← hcn.1, g3]
      · split at hcn
        · simp only [Option.some.injEq, Prod.mk.injEq] at hcn; rw [← hcn.1]; exact g3
        · simp only at hcn
          split at hcn
          · simp only [Option.some.injEq] at hcn
            have h8 := congrArg Prod.fst hcn
            simp only at h8
            rw [← h8]
            unfold judge
            split
            · exact g3
            · simp only; split
              · rw [(addWaiting_fields _ _ _).2.2.2.2.2.2.2.2.1]; exact g3
              · split <;> exact g3
          · cases hcn
    split at h
    · cases h
    · rename_i S2 hcn
      simp only [Option.some.injEq] at h
      left; rw [← h]
      have h5 := hcs hcn
      exact ⟨h5, fun x ⟨n, hn, _⟩ => hne ((considerNode_state hcn).1.trans ga) n hn⟩
    · rename_i S2 hcn
      split at h
      · rw [Option.map_eq_some_iff] at h
        obtain ⟨S3, hS3, rfl⟩ := h
        rcases handOut_active hS3 with ⟨r0, _⟩ | ⟨_, r1, r2, _⟩
        · cases r0
        · left
          exact ⟨r2.trans (hcs hcn), fun x ⟨n, hn, _⟩ => hne (r1.trans ((considerNode_state hcn).1.trans ga)) n hn⟩
      · cases h
    · rename_i S2 hcn
      rw [Option.map_eq_some_iff] at h
      obtain ⟨S3, hS3, rfl⟩ := h
      rcases handOut_active hS3 with ⟨_, r1, _, r2, r3⟩ | ⟨_, r1, r2, _⟩
      · right
        obtain ⟨kids, hk, hr, -⟩ := considerNode_ready hcn
        rw [g1] at hr
        exact ⟨k, r1.trans (by rw [(considerNode_state hcn).1, ga]), r2.trans (by rw [hcs hcn]), hr, fun m hm => r3 m (Or.inl hm)⟩
      · left
        exact ⟨r2.trans (hcs hcn), fun x ⟨n, hn, _⟩ => hne (r1.trans ((considerNode_state hcn).1.trans ga)) n hn⟩
  | finish k res post =>
    left
    simp only [TM.step] at h
    split at h
    case isFalse => cases h
    have : S'.active = S.active.erase k ∧ S'.started = S.started := by
      split at h
      · exact ⟨(postprocess_failedTasks h).2.2.1, (postprocess_failedTasks h).2.1⟩
      · exact ⟨(failTask_fields h).2.2.1, (failTask_fields h).2.1⟩
    refine ⟨this.2, ?_⟩
    rintro x ⟨n, hn, _⟩
    rw [this.1] at hn
    have h1 := congrArg List.length hn
    have h2 := List.length_erase_le (a := k) (l := S.active)
    simp only [List.length_cons] at h1; omega
  | flush =>
    left
    simp only [TM.step] at h
    split at h
    · simp only [Option.some.injEq] at h; rw [← h]
      exact ⟨rfl, fun x ⟨n, hn, _⟩ => hne rfl n hn⟩
    · cases h
  | interrupt =>
    left
    simp only [TM.step, Option.some.injEq] at h; rw [← h]
    exact ⟨rfl, fun x ⟨n, hn, _⟩ => hne rfl n hn⟩

theorem rank_gt_iff (s : NState) : 1 < s.rank ↔ s ≠ .noState ∧ s ≠ .pending := by cases s <;> simp [NState.rank]

theorem Calm.past {C : Cfg V} {S S' : St V} (h : Calm C S S') {x : V} (hx : ¬ C.isSE x) (hr : 1 < (S.state x).rank) :
    1 < (S'.state x).rank := by
  rw [rank_gt_iff] at hr ⊢
  exact ⟨h.vis x hx hr.1, fun h1 => hr.2 (h.pend x h1)⟩

/-- no step makes an ordinary node that was started, finished or failed pending or unvisited again -/
theorem step_past {C : Cfg V} {S S' : St V} {l : Lab V} (h : step C S l = some S') {x : V} (hx : ¬ C.isSE x)
    (hr : 1 < (S.state x).rank) : 1 < (S'.state x).rank := by
  cases l with
  | consider alt scan pushed fate post =>
    simp only [TM.step] at h
    split at h
    · cases h
    split at h
    · cases h
    rename_i S1 k hnc
    obtain ⟨g1, -⟩ := nextCandidate_fields hnc
    have hcs : ∀ {S2 o}, considerNode C S1 k scan pushed = some (S2, o) → 1 < (S2.state x).rank := by
      intro S2 o hcn
      rcases (considerNode_state hcn).2 x with h3 | h3 | ⟨h3, h4⟩
      · rw [h3, g1]; exact hr
      · rw [h3]; simp [NState.rank]
      · subst h3; rw [g1] at h4; omega
    split at h
    · cases h
    · rename_i S2 hcn
      have h5 := hcs hcn
      simp only [Option.some.injEq] at h
      rw [← h]; exact h5
    · rename_i S2 hcn
      have h5 := hcs hcn
      split at h
      · rw [Option.map_eq_some_iff] at h
        obtain ⟨S3, hS3, rfl⟩ := h
        exact (Calm.handOut hS3).past hx h5
      · cases h
    · rename_i S2 hcn
      have h5 := hcs hcn
      rw [Option.map_eq_some_iff] at h
      obtain ⟨S3, hS3, rfl⟩ := h
      exact (Calm.handOut hS3).past hx h5
  | finish k res post =>
    simp only [TM.step] at h
    split at h
    case isFalse => cases h
    have h1 : 1 < (({ S with active := S.active.erase k, clock := S.clock + 1 } : St V).state x).rank := hr
    split at h
    · exact (Calm.trans .executed (.postprocess h)).past hx h1
    · exact (Calm.failTask h).past hx h1
  | flush =>
    simp only [TM.step] at h
    split at h
    · simp only [Option.some.injEq] at h; rw [← h]; exact hr
    · cases h
  | interrupt =>
    simp only [TM.step, Option.some.injEq] at h; rw [← h]; exact hr

structure OnceInv (C : Cfg V) (S : St V) : Prop where
  past : ∀ x ∈ S.started, ¬ C.isSE x → 1 < (S.state x).rank
  peer : ∀ x ∈ S.started, ∀ m ∈ C.targets x, m ∈ S.started

theorem OnceInv.step {C : Cfg V} (hC : C.WF) {S S' : St V} {l : Lab V} (hi : OnceInv C S)
    (h : TM.step C S l = some S') : OnceInv C S' := by
  rcases started_of_step h with ⟨h1, -⟩ | ⟨n, -, h1, h2, h3⟩
  · exact ⟨fun x hx hse => step_past h hse (hi.past x (h1 ▸ hx) hse), by rw [h1]; exact hi.peer⟩
  · constructor
    · intro x hx hse
      rw [h1] at hx
      rcases List.mem_append.1 hx with hx | hx
      · rw [h3 x hx]; simp [NState.rank]
      · exact step_past h hse (hi.past x hx hse)
    · intro x hx m hm
      rw [h1] at hx ⊢
      rcases List.mem_append.1 hx with hx | hx
      · rw [hC.peers n x hx] at hm; exact List.mem_append.2 (Or.inl hm)
      · exact List.mem_append.2 (Or.inr (hi.peer x hx m hm))

/-- **C02.** In one run an ordinary target (not a side-effect file) is started at most once: after a step that starts
`x`, no later step starts it again.  No restriction on scans, failures, schedules or cycles. -/
theorem C02_started_at_most_once {C : Cfg V} (hC : C.WF) (hI : ∀ n, ¬ C.isSE n → ∀ m ∈ C.targets n, ¬ C.isSE m)
    {orig : List V} {S0 S1 S2 S3 : St V} {l l' : Lab V} {x : V} (hx : ¬ C.isSE x)
    (h0 : Reach C (fun _ _ => True) orig S0) (h1 : step C S0 l = some S1) (hst : Starts C S0 S1 x)
    (h2 : Steps C (fun _ _ => True) S1 S2) (h3 : step C S2 l' = some S3) : ¬ Starts C S2 S3 x := by
  have hO : OnceInv C S0 := Steps.inv (I := OnceInv C) (fun S l S' hi _ hs => hi.step hC hs) h0
    ⟨by simp [St.init], by simp [St.init]⟩
  have hx1 : x ∈ S1.started := by
    rcases started_of_step h1 with ⟨_, e⟩ | ⟨n, e1, e2, -⟩
    · exact absurd hst (e x)
    · obtain ⟨m, hm, hxm⟩ := hst
      rw [e1, List.cons.injEq] at hm
      rw [e2, hm.1]; exact List.mem_append.2 (Or.inl hxm)
  obtain ⟨hx2, hO2⟩ : x ∈ S2.started ∧ OnceInv C S2 := by
    refine Steps.inv (I := fun S => x ∈ S.started ∧ OnceInv C S) ?_ h2 ⟨hx1, hO.step hC h1⟩
    rintro S l S' ⟨hi1, hi2⟩ _ hs
    refine ⟨?_, hi2.step hC hs⟩
    rcases started_of_step hs with ⟨e, _⟩ | ⟨n, _, e, _⟩
    · rw [e]; exact hi1
    · rw [e]; exact List.mem_append.2 (Or.inr hi1)
  rintro ⟨n, hn, hxn⟩
  rcases started_of_step h3 with ⟨_, e⟩ | ⟨k, e1, _, e3, _⟩
  · exact e x ⟨n, hn, hxn⟩
  · rw [e1, List.cons.injEq] at hn
    rw [← hn.1] at hxn
    -- the node handed out is a co-target of `x`, hence started before and no longer pending
    have hkx : k ∈ C.targets x := by rw [hC.peers k x hxn]; exact hC.self k
    have := hO2.past k (hO2.peer x hx2 k hkx) (hI x hx k hkx)
    omega

/-- a target is also not started twice by one step (its executor lists it once) -/
theorem C02_history_has_no_duplicates {C : Cfg V} {orig : List V} {S : St V} (hp : Project C orig)
    (h : Reach C (PlainLab C) orig S) : S.started.Nodup :=
  (Reach.inv hp (fun _ _ h => h) h).startedRest.nodup

/-! ## C03 -/

theorem failedTasks_mono {C : Cfg V} {S S' : St V} {l : Lab V} (h : step C S l = some S') {f : V} (hf : f ∈ S.failedTasks) :
    f ∈ S'.failedTasks := by
  cases l with
  | consider alt scan pushed fate post =>
    simp only [TM.step] at h
    split at h
    · cases h
    split at h
    · cases h
    rename_i S1 k hnc
    obtain ⟨g1, g2, g3, g4, g5, -⟩ := nextCandidate_fields hnc
    have hcs : ∀ {S2 o}, considerNode C S1 k scan pushed = some (S2, o) → f ∈ S2.failedTasks := by
      intro S2 o hcn; rw [(considerNode_misc hcn).1, g5]; exact hf
    have hho : ∀ {S2 S3 fate}, f ∈ S2.failedTasks → handOut C S2 k fate post = some S3 → f ∈ S3.failedTasks := by
      intro S2 S3 fate h1 h2
      rcases handOut_failedTasks h2 with e | e <;> rw [e]
      · exact h1
      · exact Finset.mem_union.2 (Or.inl h1)
    split at h
    · cases h
    · rename_i S2 hcn
      have h5 := hcs hcn
      simp only [Option.some.injEq] at h
      rw [← h]; exact h5
    · rename_i S2 hcn
      have h5 := hcs hcn
      split at h
      · rw [Option.map_eq_some_iff] at h
        obtain ⟨S3, hS3, rfl⟩ := h
        have h6 := hho h5 hS3
        exact h6
      · cases h
    · rename_i S2 hcn
      have h5 := hcs hcn
      rw [Option.map_eq_some_iff] at h
      obtain ⟨S3, hS3, rfl⟩ := h
      have h6 := hho h5 hS3
      exact h6
  | finish k res post =>
    simp only [TM.step] at h
    split at h
    case isFalse => cases h
    split at h
    · rw [(postprocess_failedTasks h).1]; exact hf
    · rw [(failTask_fields h).1]; exact Finset.mem_union.2 (Or.inl hf)
  | flush =>
    simp only [TM.step] at h
    split at h
    · simp only [Option.some.injEq] at h; rw [← h]; exact hf
    · cases h
  | interrupt =>
    simp only [TM.step, Option.some.injEq] at h; rw [← h]; exact hf


/-- **C03.** (`-k`; in general: no failure is ignored.)  In every reachable state, nothing that a started target
transitively depends on has failed: all of it is finished successfully. -/
theorem C03_started_depends_on_no_failure {C : Cfg V} {orig : List V} {S : St V} (hp : Project C orig)
    (h : Reach C (StableNoIgnore C) orig S) {x f : V} (hx : x ∈ S.started)
    (hd : Relation.TransGen (DependsOn S) x f) : (S.state f).done ∧ f ∉ S.failedTasks := by
  obtain ⟨hi, hm⟩ := Reach.mi (ni := True) hp (fun S l hl => ⟨hl.1, hl.2.1, fun _ => hl.2.2⟩) h
  have hdone : (S.state f).done := by
    induction hd with
    | single h1 => exact (hm.inv.deps x (hi.startedRest.nse x hx) (Or.inl hx) _ h1).1
    | @tail b c h0 h1 ih =>
      have hb : ¬ C.isSE b := by
        rcases Relation.TransGen.tail'_iff.1 h0 with ⟨a, _, hab⟩
        exact hi.seenSE a b hab
      exact (hm.inv.deps b hb (Or.inr (NState.past_of_done ih)) c h1).1
  refine ⟨hdone, fun hf => ?_⟩
  rw [hm.inv.ftask trivial f hf] at hdone
  exact hdone

/-- **C03 (as a statement about steps).** Once `f` has failed, no later step starts a target that depends on `f`. -/
theorem C03_dependents_of_failed_never_started {C : Cfg V} {orig : List V} {S1 S2 S3 : St V} {l : Lab V}
    (hp : Project C orig) (h1 : Reach C (StableNoIgnore C) orig S1) {x f : V} (hf : f ∈ S1.failedTasks)
    (h2 : Steps C (StableNoIgnore C) S1 S2) (hP : StableNoIgnore C S2 l) (h3 : step C S2 l = some S3)
    (hd : Relation.TransGen (DependsOn S3) x f) : ¬ Starts C S2 S3 x := by
  intro hst
  have hx : x ∈ S3.started := by
    rcases started_of_step h3 with ⟨_, e⟩ | ⟨n, e1, e2, -⟩
    · exact absurd hst (e x)
    · obtain ⟨m, hm, hxm⟩ := hst
      rw [e1, List.cons.injEq] at hm
      rw [e2, hm.1]; exact List.mem_append.2 (Or.inl hxm)
  have hall : Steps C (StableNoIgnore C) S1 S3 := .tail l h2 hP h3
  have hf3 : f ∈ S3.failedTasks := by
    refine Steps.inv (I := fun S => f ∈ S.failedTasks) ?_ hall hf
    intro S l S' hi _ hs
    exact failedTasks_mono hs hi
  exact (C03_started_depends_on_no_failure hp (h1.trans hall) hx hd).2 hf3

end Verif.TM
