import Verif.Whole.Total
import Verif.TM.Only

/-!
# C46, total correctness: a build in which nothing fails ends, and builds everything

If the project can be layered (no cyclic dependencies, whatever the scans find), no action and no scan fails and nobody interrupts, then a parallel
build cannot end, or get stuck, otherwise than with every worker gone, no error reported and every requested target having the content of
a clean build.
-/

set_option linter.unusedSectionVars false

namespace Verif.TM
variable {V : Type} [DecidableEq V] [Fintype V]

theorem Lab.stopOnly_of_noFail {l : Lab V} (h : l.noFail) : l.stopOnly := by
  cases l with
  | consider alt scan pushed fate post => intro m hm; rw [h.2] at hm; cases hm
  | finish n res post => cases h; intro m hm; cases hm
  | flush => trivial
  | interrupt => trivial

theorem considerNode_calm {C : Cfg V} {S S' : St V} {n : V} {scan : Scan V} {pushed : List V} {o : Outcome}
    (h : considerNode C S n scan pushed = some (S', o)) : S'.stopped = S.stopped ∧ S'.failedTasks = S.failedTasks := by
  unfold considerNode at h
  split at h
  · simp only [Option.some.injEq, Prod.mk.injEq] at h; rw [← h.1]; exact ⟨rfl, rfl⟩
  · split at h
    · simp only [Option.some.injEq, Prod.mk.injEq] at h; rw [← h.1]; exact ⟨rfl, rfl⟩
    · simp only at h
      split at h
      · simp only [Option.some.injEq] at h
        have h3 := congrArg Prod.fst h
        simp only at h3
        rw [← h3]
        unfold judge
        split
        · exact ⟨rfl, rfl⟩
        · simp only; split
          · obtain ⟨f1, f2, f3, f4, f5, f6, f7, f8, f9, f10, -⟩ := addWaiting_fields n ((C.prereqs n ++ _).filter (fun c => (_ : NState).rank ≤ 2)) _
            exact ⟨f7, f10⟩
          · split <;> exact ⟨rfl, rfl⟩
      · cases h

/-- Nothing fails, nothing is recorded as failed, and the walk is not stopped. -/
theorem step_noFail {C : Cfg V} {S S' : St V} {l : Lab V} (hl : l.noFail) (hni : l ≠ .interrupt) (h : step C S l = some S') :
    S'.stopped = S.stopped ∧ S'.failedTasks = S.failedTasks := by
  cases l with
  | consider alt scan pushed fate post =>
    have hho : ∀ {n S2 S3}, handOut C S2 n fate post = some S3 → S3.stopped = S2.stopped ∧ S3.failedTasks = S2.failedTasks := by
      intro n S2 S3 hh
      cases fate with
      | exc m => cases hl.2
      | excReady b m => cases hl.2
      | internal r =>
        cases r with
        | none =>
          unfold handOut at hh
          have := postprocess_failedTasks hh
          exact ⟨this.2.2.2.2.1, this.1⟩
        | some m => cases hl.2
      | start =>
        simp only [handOut, Option.some.injEq] at hh
        rw [← hh]; exact ⟨rfl, rfl⟩
    simp only [step] at h
    split at h
    · cases h
    split at h
    · cases h
    rename_i S1 n hnc
    have g1 : S1.stopped = S.stopped ∧ S1.failedTasks = S.failedTasks := by
      have := nextCandidate_fields hnc
      exact ⟨this.2.2.2.2.2.2.2.2.1, this.2.2.2.2.1⟩
    split at h
    · cases h
    · rename_i S2 hcn
      simp only [Option.some.injEq] at h
      have h5 := considerNode_calm hcn
      rw [← h, ← g1.1, ← g1.2]
      exact h5
    · rename_i S2 hcn
      split at h
      · cases hl.2
      · cases h
    · rename_i S2 hcn
      rw [Option.map_eq_some_iff] at h
      obtain ⟨S3, h1, h2⟩ := h
      have h4 := hho h1
      have h5 := considerNode_calm hcn
      rw [← h2]
      exact ⟨h4.1.trans (h5.1.trans g1.1), h4.2.trans (h5.2.trans g1.2)⟩
  | finish n res post =>
    simp only [step] at h
    split at h
    case isFalse => cases h
    cases hl
    simp only at h
    have := postprocess_failedTasks h
    exact ⟨this.2.2.2.2.1, this.1⟩
  | flush =>
    simp only [step] at h
    split at h
    case isFalse => cases h
    simp only [Option.some.injEq] at h
    rw [← h]; exact ⟨rfl, rfl⟩
  | interrupt => exact absurd rfl hni

end Verif.TM

namespace Verif.Whole

open Verif.Build Verif.Pool

variable {V B K A : Type} [DecidableEq V] [DecidableEq K] [Fintype V]

/-- The project has no cyclic dependencies: the nodes can be layered so that whatever a scan of `n` finds, in whatever files, lies in lower layers than `n`,
and so do the prerequisites of `n`; the targets of an action are in the same layer. -/
def Layered (D : Desc V B A) (C : TM.Cfg V) (r : V → Nat) : Prop :=
  (∀ n sc, D n = some sc → ∀ g : Files V B, ∀ c ∈ (sc.result g).children, r c < r n) ∧ (∀ n, ∀ c ∈ C.prereqs n, r c < r n) ∧ ∀ n, ∀ m ∈ C.targets n, r m = r n

/-- Recorded dependencies respect the layers. -/
structure Lay (D : Desc V B A) (r : V → Nat) (X : CSt V B K A) : Prop where
  memo : ∀ n l, X.memo n = some l → ∃ sc g, D n = some sc ∧ l = sc.result g
  seen : ∀ x y, y ∈ X.T.seen x → r y < r x

theorem leafOf_result {D : Desc V B A} {X : CSt V B K A} (h : ∀ n l, X.memo n = some l → ∃ sc g, D n = some sc ∧ l = sc.result g) {n : V} {l : Leaf V A}
    (hl : X.leafOf D n = some l) : ∃ sc g, D n = some sc ∧ l = sc.result g := by
  unfold CSt.leafOf at hl
  rw [Option.map_eq_some_iff] at hl
  obtain ⟨sc, hsc, hl⟩ := hl
  cases hm : X.memo n with
  | none => rw [hm] at hl; exact ⟨sc, X.S.fs, hsc, hl.symm⟩
  | some l' => rw [hm] at hl; obtain ⟨sc', g, h1, h2⟩ := h n l' hm; exact ⟨sc', g, h1, by rw [← hl, ← h2]; rfl⟩

theorem Lay.step {M : Sem B K A} {D : Desc V B A} {C : TM.Cfg V} (hC : TM.Groups C (fun n => (D n).isSome)) {r : V → Nat} (hL : Layered D C r)
    {X X' : CSt V B K A} {l : TM.Lab V} (h : Lay D r X) (hs : CStep M D C X l X') : Lay D r X' := by
  have hmemo : ∀ n scan, ∀ x l, X.scanned D C n scan x = some l → ∃ sc g, D x = some sc ∧ l = sc.result g := by
    intro n scan x l hx
    cases scan with
    | raised => exact h.memo x l hx
    | ok kids =>
      simp only [CSt.scanned] at hx
      split at hx
      · simp only at hx
        split at hx
        · exact leafOf_result h.memo hx
        · exact h.memo x l hx
      · exact h.memo x l hx
  have hseen : ∀ {T' alt scan pushed fate post T1 n}, TM.step C X.T (.consider alt scan pushed fate post) = some T' →
      TM.nextCandidate X.T alt = some (T1, n) → X.scanOK D C n scan → ∀ x y, y ∈ T'.seen x → r y < r x := by
    intro T' alt scan pushed fate post T1 n hstep hnc hok x y hy
    rcases TM.step_seen hstep with ⟨e, -⟩ | ⟨alt', kids, pushed', fate', post', T1', n', e, hnc', e2⟩
    · rw [e] at hy; exact h.seen x y hy
    · injection e with e3 e4
      subst e3 e4
      rw [hnc] at hnc'
      simp only [Option.some.injEq, Prod.mk.injEq] at hnc'
      obtain ⟨-, rfl⟩ := hnc'
      rw [e2, TM.updOn_apply] at hy
      split at hy
      · rename_i hx
        rw [hL.2.2 n x hx]
        rw [Finset.mem_union] at hy
        rcases hy with hy | hy
        · exact h.seen _ _ hy
        · rw [List.mem_toFinset, List.mem_append] at hy
          rcases hy with hy | hy
          · exact hL.2.1 _ _ hy
          · rcases hok with hok | hok
            · cases hok
            · injection hok with hok
              rw [hok] at hy
              unfold CSt.kidsOf at hy
              rw [List.mem_eraseDups, List.mem_flatMap] at hy
              obtain ⟨t, ht, hy⟩ := hy
              cases hl : X.leafOf D t with
              | none => rw [hl] at hy; simp at hy
              | some l =>
                rw [hl] at hy
                obtain ⟨sc, g, h1, h2⟩ := leafOf_result h.memo hl
                rw [← hL.2.2 n t ht]
                simp only at hy
                rw [h2] at hy
                exact hL.1 _ _ h1 g _ hy
      · exact h.seen x y hy
  have hfin : ∀ {T' n res post}, TM.step C X.T (.finish n res post) = some T' → ∀ x y, y ∈ T'.seen x → r y < r x := by
    intro T' n res post hstep x y hy
    rcases TM.step_seen hstep with ⟨e, -⟩ | ⟨alt', kids, pushed', fate', post', T1', n', e, -⟩
    · rw [e] at hy; exact h.seen x y hy
    · cases e
  cases hs with
  | walk hstep hnc hok hret => exact ⟨hmemo _ _, hseen hstep hnc hok⟩
  | source hstep hok hret => obtain ⟨-, -, S1, hnc⟩ := returned_facts hret; exact ⟨hmemo _ _, hseen hstep hnc hok⟩
  | current hstep hok hret => obtain ⟨-, -, S1, hnc⟩ := returned_facts hret; exact ⟨hmemo _ _, hseen hstep hnc hok⟩
  | start hstep hok hret => obtain ⟨-, -, S1, hnc⟩ := returned_facts hret; exact ⟨hmemo _ _, hseen hstep hnc hok⟩
  | early hstep hok hf hret => obtain ⟨-, -, S1, hnc⟩ := returned_facts hret; exact ⟨hmemo _ _, hseen hstep hnc hok⟩
  | removed hstep hok hret => obtain ⟨-, -, S1, hnc⟩ := returned_facts hret; exact ⟨hmemo _ _, hseen hstep hnc hok⟩
  | finish hstep =>
    refine ⟨fun x l hx => ?_, hfin hstep⟩
    simp only at hx
    split at hx
    · cases hx
    · exact h.memo x l hx
  | fail hstep => exact ⟨h.memo, hfin hstep⟩
  | flush hstep =>
    refine ⟨h.memo, fun x y hy => ?_⟩
    rcases TM.step_seen hstep with ⟨e, -⟩ | ⟨alt', kids, pushed', fate', post', T1', n', e, -⟩
    · rw [e] at hy; exact h.seen x y hy
    · cases e
  | interrupt hstep =>
    refine ⟨h.memo, fun x y hy => ?_⟩
    rcases TM.step_seen hstep with ⟨e, -⟩ | ⟨alt', kids, pushed', fate', post', T1', n', e, -⟩
    · rw [e] at hy; exact h.seen x y hy
    · cases e

theorem CSteps.lay {M : Sem B K A} {D : Desc V B A} {C : TM.Cfg V} (hC : TM.Groups C (fun n => (D n).isSome)) {r : V → Nat} (hL : Layered D C r)
    {P : CSt V B K A → TM.Lab V → CSt V B K A → Prop} {orig : List V} {S : St V B K A} {X : CSt V B K A} (h : CSteps M D C P (CSt.init orig S) X) : Lay D r X := by
  generalize hX0 : CSt.init orig S = X0 at h
  induction h with
  | refl =>
    subst hX0
    exact ⟨fun n l hl => by simp [CSt.init] at hl, fun x y hy => by simp [CSt.init, TM.St.init] at hy⟩
  | tail l _ _ hs ih => exact ih.step hC hL hs
  | scribble t b _ _ ih => exact ⟨ih.memo, ih.seen⟩

/-- In a project without cyclic dependencies, the dependencies recorded in a build never form a cycle. -/
theorem acyclic_of_layered {M : Sem B K A} {D : Desc V B A} {C : TM.Cfg V} (hC : TM.Groups C (fun n => (D n).isSome)) {r : V → Nat} (hL : Layered D C r)
    {P : CSt V B K A → TM.Lab V → CSt V B K A → Prop} {orig : List V} {S : St V B K A} {X : CSt V B K A} (h : CSteps M D C P (CSt.init orig S) X) :
    TM.Acyclic X.T := by
  have hl := (CSteps.lay hC hL h).seen
  intro x hx
  have : ∀ {a b}, Relation.TransGen (TM.DependsOn X.T) a b → r b < r a := by
    intro a b hab
    induction hab with
    | single h1 => exact hl _ _ h1
    | tail _ h1 ih => exact lt_trans (hl _ _ h1) ih
  exact absurd (this hx) (lt_irrefl _)

/-- `scons -jN` in which nothing fails and nobody interrupts: the steps of the taskmaster contain no failure, and every `execute()` so far has succeeded. -/
inductive Quiet (M : Sem B K A) (D : Desc V B A) (C : TM.Cfg V) (orig : List V) (S : St V B K A) (N : Nat) : Pool (CSt V B K A) V → Prop
  | init : Quiet M D C orig S N (Pool.init (CSt.init orig S) N)
  | work {s s'} : Quiet M D C orig S N s → Step (wtmi M D C Smooth) s s' → (∀ k, (k, false) ∉ s'.execd) → Quiet M D C orig S N s'
  | write {s s'} : Quiet M D C orig S N s → Writes s s' → Quiet M D C orig S N s'

theorem Quiet.reach {M : Sem B K A} {D : Desc V B A} {C : TM.Cfg V} {orig : List V} {S : St V B K A} {N : Nat} {s : Pool (CSt V B K A) V}
    (h : Quiet M D C orig S N s) : Reach (wtmi M D C Smooth) (CSt.init orig S) N s := by
  induction h with
  | init => exact .refl
  | work _ hs _ ih => exact .tail ih (Or.inl hs)
  | write _ hs ih => exact .tail ih (next_iff.2 (Or.inr hs))

theorem Quiet.ok {M : Sem B K A} {D : Desc V B A} {C : TM.Cfg V} {orig : List V} {S : St V B K A} {N : Nat} {s : Pool (CSt V B K A) V}
    (h : Quiet M D C orig S N s) : ∀ k, (k, false) ∉ s.execd := by
  induction h with
  | init => simp [Pool.init]
  | work _ _ h _ => exact h
  | write _ hs ih => obtain ⟨t, b, -, rfl⟩ := hs; exact ih

theorem Step.mono {M : Sem B K A} {D : Desc V B A} {C : TM.Cfg V} {P P' : CSt V B K A → TM.Lab V → CSt V B K A → Prop}
    (h : ∀ X l X', P X l X' → P' X l X') {s s' : Pool (CSt V B K A) V} (hn : Step (wtmi M D C P) s s') : Step (wtmi M D C P') s s' := by
  cases hn with
  | acquire i d h hl => exact .acquire i d h hl
  | reacquire i h hl => exact .reacquire i h hl
  | wait i d h hst => exact .wait i d h hst
  | halt i d h hst => exact .halt i d h hst
  | begin i d h hst => exact .begin i d h hst
  | retire i k ok rs tm' h2 ht => obtain ⟨res, post, h1, ht⟩ := ht; exact .retire i k ok rs tm' h2 ⟨res, post, h _ _ _ h1, ht⟩
  | retired i h => exact .retired i h
  | internal i tm' h2 hst ht => obtain ⟨l, h1, ht⟩ := ht; exact .internal i tm' h2 hst ⟨l, h _ _ _ h1, ht⟩
  | give i k tm' pcs' h2 hst ht hn => obtain ⟨l, h1, ht⟩ := ht; exact .give i k tm' pcs' h2 hst ⟨l, h _ _ _ h1, ht⟩ hn
  | stall i tm' h hst ht hj => exact .stall i tm' h hst ht hj
  | complete i tm' h hst ht hj => exact .complete i tm' h hst ht hj
  | releaseExec i k h => exact .releaseExec i k h
  | releaseIdle i h => exact .releaseIdle i h
  | execute i k ok h => exact .execute i k ok h
  | enqueue i k ok h => exact .enqueue i k ok h

theorem Reach.mono {M : Sem B K A} {D : Desc V B A} {C : TM.Cfg V} {P P' : CSt V B K A → TM.Lab V → CSt V B K A → Prop}
    (h : ∀ X l X', P X l X' → P' X l X') {X : CSt V B K A} {N : Nat} {s : Pool (CSt V B K A) V} (hr : Reach (wtmi M D C P) X N s) :
    Reach (wtmi M D C P') X N s := by
  induction hr with
  | refl => exact .refl
  | @tail b c _ hn ih =>
    refine .tail ih ?_
    rcases hn with hn | ⟨X', hn, rfl⟩
    · exact Or.inl (Step.mono h hn)
    · right
      refine ⟨X', ?_, rfl⟩
      rcases hn with ⟨h1, h2⟩ | h1
      · exact Or.inl ⟨h _ _ _ h1, h2⟩
      · exact Or.inr h1

/-- Quiet builds are builds. -/
theorem Quiet.runs {M : Sem B K A} {D : Desc V B A} {C : TM.Cfg V} {orig : List V} {S : St V B K A} {N : Nat} {s : Pool (CSt V B K A) V}
    (h : Quiet M D C orig S N s) : Runs M D C orig S N s := Reach.mono (fun _ _ _ h => h.real) h.reach

theorem outcome_execd {T K : Type} {M : TMI T K} {tm : T} {N : Nat} {s : Pool T K} (h : Reach M tm N s) {i : Nat} {k : K} {ok : Bool} {rs : List (K × Bool)}
    (hp : s.pcs[i]? = some (.retire ((k, ok) :: rs))) : (k, ok) ∈ s.execd := by
  rw [(C13_no_task_lost_or_retired_twice h).2.1, Multiset.mem_add]
  right
  have : ∀ (l : List (PC K)) (i : Nat), l[i]? = some (.retire ((k, ok) :: rs)) → (k, ok) ∈ (l.map PC.outcomes).sum := by
    intro l
    induction l with
    | nil => intro i h; simp at h
    | cons p l ih =>
      intro i h
      rw [List.map_cons, List.sum_cons, Multiset.mem_add]
      cases i with
      | zero => simp only [List.getElem?_cons_zero, Option.some.injEq] at h; subst h; left; simp [PC.outcomes]
      | succ i => right; exact ih i (by simpa using h)
  exact this _ i hp

theorem Quiet.calm {M : Sem B K A} {D : Desc V B A} {C : TM.Cfg V} {orig : List V} {S : St V B K A} {N : Nat} {s : Pool (CSt V B K A) V}
    (h : Quiet M D C orig S N s) : s.tm.T.stopped = false ∧ s.tm.T.failedTasks = ∅ := by
  have h1 := Reach.csteps h.reach
  generalize hX0 : CSt.init orig S = X0 at h1
  generalize s.tm = X at h1
  induction h1 with
  | refl => subst hX0; exact ⟨rfl, rfl⟩
  | tail l _ hP hs ih =>
    have := TM.step_noFail hP.1 hP.2.2 hs.tm
    exact ⟨this.1.trans ih.1, this.2.trans ih.2⟩
  | scribble t b _ _ ih => exact ih

theorem Quiet.live {M : Sem B K A} {D : Desc V B A} {C : TM.Cfg V} (hC : TM.Groups C (fun n => (D n).isSome)) {orig : List V} {S : St V B K A}
    (h0 : ∀ v, S.running v = none) {N : Nat} {s : Pool (CSt V B K A) V} (h : Quiet M D C orig S N s) : (wtmi M D C Smooth).Live s where
  retire := by
    rintro k ok - ⟨i, rs, hp⟩
    have hok := outcome_execd h.reach hp
    cases ok with
    | false => exact absurd hok (h.ok k)
    | true =>
      exact retire_possible hC.wf.self (h.runs.wk hC h0) (retire_in_active (P := fun _ _ => True) (Reach.proj (fun _ _ _ _ => trivial) h.runs) hp)
  next := next_possible hC s.tm

/-- **C46, total correctness.**  A project without cyclic dependencies, after any history; `scons -jN` for the targets `orig`, any schedule, in which nothing fails and
nobody interrupts.  In every state of such a build, either the build can go on (without a failure), or all workers have left, `cleanup()` reports no
error, and every requested target has the content of a clean build.  Since the build cannot go on for ever (`C46_terminates`), it ends in the latter way. -/
theorem C46_total_correctness {M : Sem B K A} (hM : M.Faithful) {D : Desc V B A} {S S1 : St V B K A} {C : TM.Cfg V} {orig : List V} {r : V → Nat}
    (hist : Hist M D S) (hC : TM.Groups C (fun n => (D n).isSome)) (hL : Layered D C r) (hb : Build.Step M D S .begin S1) {N : Nat}
    {s : Pool (CSt V B K A) V} (h : Quiet M D C orig S1 N s) :
    (∃ s', Step (wtmi M D C Smooth) s s' ∧ Quiet M D C orig S1 N s') ∨
    ((∀ p ∈ s.pcs, p = .halted) ∧ (∀ foundCycle, ¬ TM.cleanupRaises s.tm.T foundCycle) ∧ ∀ t ∈ orig, Clean M D s.tm.S.fs t (s.tm.S.fs t)) := by
  rcases C12_no_deadlock h.reach (h.live hC (begin_running hb)) with hh | ⟨s', hs⟩
  · right
    obtain ⟨p, hp⟩ := List.exists_mem_of_ne_nil _ h.reach.pcs_ne
    obtain ⟨i, hi⟩ := List.getElem?_of_mem hp
    rw [hh p hp] at hi
    have hover : s.tm.T.over :=
      complete_is_over (P := fun _ _ => True) (Reach.proj (fun _ _ _ _ => trivial) h.runs) (h.reach.inv.halt i hi)
    have hcl : ∀ foundCycle, ¬ TM.cleanupRaises s.tm.T foundCycle := by
      intro fc
      have hr : TM.Reach C (TM.StopLab C) orig s.tm.T := by
        have h1 := Reach.csteps h.reach
        generalize hX0 : CSt.init orig S1 = X0 at h1
        generalize s.tm = X at h1
        induction h1 with
        | refl => subst hX0; exact .refl _
        | tail l _ hP hs ih => exact .tail l ih ⟨hC.noSELab l, TM.Lab.stopOnly_of_noFail hP.1, Or.inl hC.notSE⟩ hs.tm
        | scribble t b _ _ ih => exact ih
      exact TM.C07_no_false_cycle_report_partial (hC.project orig) hr hover (acyclic_of_layered hC hL (Reach.csteps h.reach)) fc
    refine ⟨hh, hcl, fun t ht => ?_⟩
    exact C46_parallel_build_is_clean hM hist hC hb h.runs hi h.calm.1 h.calm.2 (hcl (fun _ => false)) ht
  · left
    by_cases hex : ∀ k, (k, false) ∉ s'.execd
    · exact ⟨s', hs, .work h hs hex⟩
    · -- the only step that adds a failed outcome is `execute`; let it succeed instead
      cases hs with
      | execute i k ok hp =>
        refine ⟨{ s with pcs := s.pcs.set i (.enqueue k true), execd := (k, true) ::ₘ s.execd }, .execute i k true hp, .work h (.execute i k true hp) ?_⟩
        intro k' hk'
        simp only [Multiset.mem_cons, Prod.mk.injEq, Bool.false_eq_true, and_false, false_or] at hk'
        exact h.ok k' hk'
      | _ => exact absurd h.ok hex

/-- … and such a build exists: whatever has happened so far in it, a quiet build can be carried on to its successful end. -/
theorem C46_can_always_be_finished {M : Sem B K A} (hM : M.Faithful) {D : Desc V B A} {S S1 : St V B K A} {C : TM.Cfg V} {orig : List V} {r : V → Nat}
    (hist : Hist M D S) (hC : TM.Groups C (fun n => (D n).isSome)) (hL : Layered D C r) (hb : Build.Step M D S .begin S1) {N : Nat}
    {s : Pool (CSt V B K A) V} (h : Quiet M D C orig S1 N s) :
    ∃ s', Relation.ReflTransGen (Step (wtmi M D C Smooth)) s s' ∧ Quiet M D C orig S1 N s' ∧ (∀ p ∈ s'.pcs, p = .halted) ∧
      (∀ foundCycle, ¬ TM.cleanupRaises s'.tm.T foundCycle) ∧ ∀ t ∈ orig, Clean M D s'.tm.S.fs t (s'.tm.S.fs t) := by
  have hwf : WellFounded (fun s' s : Pool (CSt V B K A) V => Works M D C Real s s') :=
    Subrelation.wf (fun {_ _} h => Works.decr hC h) (InvImage.wf (fun s : Pool (CSt V B K A) V => (TM.walkMeasure C s.tm.T, s.weight)) lex_wf)
  induction s using hwf.induction with
  | _ s ih =>
    rcases C46_total_correctness hM hist hC hL hb h with ⟨s', hs, hq⟩ | ⟨h1, h2, h3⟩
    · have hw : Works M D C Real s s' := Or.inl (Step.mono (fun _ _ _ h => h.real) hs)
      obtain ⟨s2, h1, h2⟩ := ih s' hw hq
      exact ⟨s2, .head hs h1, h2⟩
    · exact ⟨s, .refl, h, h1, h2, h3⟩

end Verif.Whole
