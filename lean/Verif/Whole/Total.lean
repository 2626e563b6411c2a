import Verif.Whole.Props

/-!
# C46 and C47: total correctness of a parallel build; what a build does not touch
-/

set_option linter.unusedSectionVars false

namespace Verif.Whole

open Verif.Build Verif.Pool

variable {V B K A : Type} [DecidableEq V] [DecidableEq K] [Fintype V]

/-! ## No deadlock -/

theorem noIgnore_of_noFail {l : TM.Lab V} (h : l.noFail) : l.noIgnore := by
  cases l with
  | consider alt scan pushed fate post =>
    cases fate with
    | exc m => cases h.2
    | excReady b m => cases h.2
    | internal r => cases r with
      | none => trivial
      | some m => cases h.2
    | start => trivial
  | finish n res post => cases h; trivial
  | flush => trivial
  | interrupt => trivial

theorem Smooth.real {X X' : CSt V B K A} {l : TM.Lab V} (h : Smooth X l X') : Real X l X' := ⟨noIgnore_of_noFail h.1, h.2.1⟩

theorem retire_in_active {C : TM.Cfg V} {P : TM.St V → TM.Lab V → Prop} {orig : List V} {max : Nat} {s : Pool (TM.St V) V}
    (h : Pool.Reach (tmi C P) (TM.St.init orig) max s) {i : Nat} {k : V} {ok : Bool} {rs : List (V × Bool)}
    (hp : s.pcs[i]? = some (.retire ((k, ok) :: rs))) : k ∈ s.tm.active := by
  have h1 := scheduler_agrees h
  have h2 : k ∈ (s.tm.active : Multiset V) := by
    rw [h1, Multiset.mem_add]
    right
    have : ∀ (l : List (PC V)) (i : Nat), l[i]? = some (.retire ((k, ok) :: rs)) → k ∈ (l.map PC.tasks).sum := by
      intro l
      induction l with
      | nil => intro i h; simp at h
      | cons p l ih =>
        intro i h
        rw [List.map_cons, List.sum_cons, Multiset.mem_add]
        cases i with
        | zero => simp only [List.getElem?_cons_zero, Option.some.injEq] at h; subst h; left; simp [PC.tasks]
        | succ i => right; exact ih i (by simpa using h)
    exact this _ i hp
  simpa using h2

/-- The runs considered: `scons -jN` for the targets `orig`, started in state `S`. -/
abbrev Runs (M : Sem B K A) (D : Desc V B A) (C : TM.Cfg V) (orig : List V) (S : St V B K A) (N : Nat) (s : Pool (CSt V B K A) V) : Prop :=
  Reach (wtmi M D C Real) (CSt.init orig S) N s

theorem Runs.wk {M : Sem B K A} {D : Desc V B A} {C : TM.Cfg V} (hC : TM.Groups C (fun n => (D n).isSome)) {orig : List V} {S : St V B K A}
    (h0 : ∀ v, S.running v = none) {N : Nat} {s : Pool (CSt V B K A) V} (h : Runs M D C orig S N s) : Wk D C s.tm :=
  (CSteps.wk hC (fun _ _ _ h => h.1) h0 (Reach.csteps h)).1

theorem live {M : Sem B K A} {D : Desc V B A} {C : TM.Cfg V} (hC : TM.Groups C (fun n => (D n).isSome)) {orig : List V} {S : St V B K A}
    (h0 : ∀ v, S.running v = none) {N : Nat} {s : Pool (CSt V B K A) V} (h : Runs M D C orig S N s) : (wtmi M D C Real).Live s where
  retire := by
    rintro k ok - ⟨i, rs, hp⟩
    have hk : k ∈ s.tm.T.active := retire_in_active (P := fun _ _ => True) (Reach.proj (fun _ _ _ _ => trivial) h) hp
    cases ok with
    | true =>
      obtain ⟨X', res, post, h1, h2, h3⟩ := retire_possible (M := M) (C := C) hC.wf.self (h.wk hC h0) hk
      exact ⟨X', res, post, h1.real, h2, h3⟩
    | false => exact fail_possible hk
  next := by
    rcases next_possible (M := M) hC s.tm with ⟨X', l, h1, h2⟩ | ⟨n, X', l, h1, h2⟩ | h1
    · exact Or.inl ⟨X', l, h1.real, h2⟩
    · exact Or.inr (Or.inl ⟨n, X', l, h1.real, h2⟩)
    · exact Or.inr (Or.inr h1)

/-- **C46, no deadlock.**  In every state that a parallel build can reach — any project, any history of failures, interrupts and file writes, any
interleaving — either all worker threads have left their loop or one of them can take a step. -/
theorem C46_no_deadlock {M : Sem B K A} {D : Desc V B A} {C : TM.Cfg V} (hC : TM.Groups C (fun n => (D n).isSome)) {orig : List V} {S : St V B K A}
    (h0 : ∀ v, S.running v = none) {N : Nat} {s : Pool (CSt V B K A) V} (h : Runs M D C orig S N s) :
    (∀ p ∈ s.pcs, p = .halted) ∨ ∃ s', Step (wtmi M D C Real) s s' :=
  C12_no_deadlock h (live hC h0 h)

/-! ## Termination -/

theorem CStep.decr {M : Sem B K A} {D : Desc V B A} {C : TM.Cfg V} (hC : TM.Groups C (fun n => (D n).isSome)) {X X' : CSt V B K A} {l : TM.Lab V}
    (hp : Real X l X') (h : CStep M D C X l X') : TM.walkMeasure C X'.T < TM.walkMeasure C X.T :=
  TM.walk_step' (hC.project []).wf (fun _ _ _ _ _ _ n _ _ => hC.notSE n) hp.2 h.tm

theorem Works.decr {M : Sem B K A} {D : Desc V B A} {C : TM.Cfg V} (hC : TM.Groups C (fun n => (D n).isSome)) {s s' : Pool (CSt V B K A) V}
    (h : Works M D C Real s s') :
    Prod.Lex (· < ·) (fun a b : Nat => a < b) (TM.walkMeasure C s'.tm.T, s'.weight) (TM.walkMeasure C s.tm.T, s.weight) := by
  rcases h with h | ⟨X', h1, h2, rfl⟩
  · refine Step.decr (M := wtmi M D C Real) (μ := fun X => TM.walkMeasure C X.T) ?_ ?_ ?_ ?_ h
    · rintro t' ⟨l, h1, -, h2, -⟩; exact CStep.decr hC h1 h2
    · rintro k t' ⟨l, h1, -, h2, -⟩; exact CStep.decr hC h1 h2
    · rintro k ok t' ⟨res, post, h1, -, h2⟩; exact CStep.decr hC h1 h2
    · rintro t' ⟨h1, -⟩; left; rw [h1]
  · exact Prod.Lex.left _ _ (CStep.decr hC h1 h2)

theorem lex_wf : WellFounded (Prod.Lex (α := Nat ×ₗ (Nat ×ₗ ((Nat ×ₗ (Nat ×ₗ Nat)) ×ₗ Nat))) (β := Nat) (· < ·) (fun a b : Nat => a < b)) :=
  WellFounded.prod_lex wellFounded_lt Nat.lt_wfRel.wf

/-- **C46, termination.**  A build ends: in an infinite sequence of steps of the program, from some moment on there are only file writes by actions that are
still running — so if every action ends, the build does.  For every project (cyclic or not), schedule, failure pattern and number of threads, with no
fairness assumption. -/
theorem C46_terminates {M : Sem B K A} {D : Desc V B A} {C : TM.Cfg V} (hC : TM.Groups C (fun n => (D n).isSome)) (f : Nat → Pool (CSt V B K A) V)
    (hf : ∀ i, Works M D C Real (f i) (f (i + 1)) ∨ Writes (f i) (f (i + 1))) :
    ∃ n, ∀ i, n ≤ i → ¬ Works M D C Real (f i) (f (i + 1)) ∧ Writes (f i) (f (i + 1)) := by
  let μ := fun i => (TM.walkMeasure C (f i).tm.T, (f i).weight)
  obtain ⟨w, ⟨n, rfl⟩, hw⟩ := lex_wf.has_min (Set.range μ) ⟨_, 0, rfl⟩
  have same : ∀ i, Writes (f i) (f (i + 1)) → μ (i + 1) = μ i := by
    rintro i ⟨t, b, -, h⟩
    show (TM.walkMeasure C (f (i + 1)).tm.T, (f (i + 1)).weight) = _
    rw [h]; rfl
  have all : ∀ k, μ (n + k) = μ n := by
    intro k
    induction k with
    | zero => rfl
    | succ k ih =>
      rcases hf (n + k) with h | h
      · exact absurd (ih ▸ Works.decr hC h) (hw _ ⟨n + k + 1, rfl⟩)
      · rw [← Nat.add_assoc, same _ h, ih]
  refine ⟨n, fun i hi => ?_⟩
  obtain ⟨k, rfl⟩ := Nat.le.dest hi
  have hno : ¬ Works M D C Real (f (n + k)) (f (n + k + 1)) := by
    intro h
    have := Works.decr hC h
    exact hw _ ⟨n + k + 1, rfl⟩ (by have h2 := all k; simp only [μ] at h2 ⊢; rw [h2] at this; exact this)
  exact ⟨hno, (hf _).resolve_left hno⟩

/-! ## C47: sources are not touched -/

theorem CStep.src {M : Sem B K A} {D : Desc V B A} {C : TM.Cfg V} {X X' : CSt V B K A} {l : TM.Lab V} (hw : Wk D C X) (h : CStep M D C X l X')
    {v : V} (hv : D v = none) : X'.S.fs v = X.S.fs v := by
  have hne : ∀ n, (D n).isSome → v ≠ n := fun n hn e => by rw [← e, hv] at hn; cases hn
  have hleaf : ∀ n l, X.leafOf D n = some l → (D n).isSome := by
    intro n l hl
    cases hd : D n with
    | none => simp [CSt.leafOf, hd] at hl
    | some sc => rfl
  cases h with
  | @current T' alt scan pushed post n lf hstep hok hret hlf hu =>
    exact congrFun ((currentAll_fields M lf (C.targets n) _).1.trans (checkAll_fields M lf (C.targets n) X.S).1) v
  | @start T' alt scan pushed post n lf hstep hok hret hlf hu =>
    have : v ∉ C.targets n := fun e => hne v (hleaf _ _ (hlf v e)) rfl
    simp only [(startAll_fields lf (C.targets n) _).1, if_neg this, (checkAll_fields M lf (C.targets n) X.S).1]
  | @removed T' alt scan pushed m post n lf gone hstep hok hret hlf hu hgone =>
    have : v ∉ gone := fun e => hne v (hleaf _ _ (hlf v (hgone.subset e))) rfl
    simp only [(failAll_fields (fun _ => none) gone _).1, if_neg this, (startAll_fields lf gone _).1, (checkAll_fields M lf (C.targets n) X.S).1]
  | @finish T' n post rs views hstep hrun =>
    have : v ∉ C.targets n := fun e => hne v (hw.tgt _ (finish_active hstep).1 v e) rfl
    simp only [(finishAll_fields M _ rs views (C.targets n) X.S).1, if_neg this]
  | @fail T' n m post left hstep =>
    have : v ∉ C.targets n := fun e => hne v (hw.tgt _ (finish_active hstep).1 v e) rfl
    simp only [(failAll_fields left (C.targets n) X.S).1, if_neg this]
  | _ => rfl

theorem CSteps.src {M : Sem B K A} {D : Desc V B A} {C : TM.Cfg V} (hC : TM.Groups C (fun n => (D n).isSome)) {orig : List V}
    {P : CSt V B K A → TM.Lab V → CSt V B K A → Prop} (hP : ∀ X l X', P X l X' → l.noIgnore) {S : St V B K A} (hrun : ∀ v, S.running v = none)
    {X : CSt V B K A} (h : CSteps M D C P (CSt.init orig S) X) {v : V} (hv : D v = none) : X.S.fs v = S.fs v := by
  generalize hX0 : CSt.init orig S = X0 at h
  induction h with
  | refl => subst hX0; rfl
  | tail l h1 hp hs ih =>
    rw [CStep.src (CSteps.wk hC hP hrun (hX0 ▸ h1)).1 hs hv]; exact ih
  | @scribble X1 t b h1 hr ih =>
    have hw := (CSteps.wk hC hP hrun (hX0 ▸ h1)).1
    have ht : (D t).isSome := by
      obtain ⟨n, h1, h2⟩ := (hw.run t).1 hr
      exact hw.tgt n h1 t h2
    have : v ≠ t := fun e => by rw [← e, hv] at ht; cases ht
    show (if v = t then b else X1.S.fs v) = _
    rw [if_neg this]; exact ih

/-- **C47.**  At every moment of every run — whatever fails, whenever it is interrupted — every file that is not a target of the project is exactly as it
was when the run started. -/
theorem C47_sources_are_never_touched {M : Sem B K A} {D : Desc V B A} {C : TM.Cfg V} (hC : TM.Groups C (fun n => (D n).isSome)) {orig : List V}
    {S : St V B K A} (h0 : ∀ v, S.running v = none) {N : Nat} {s : Pool (CSt V B K A) V} (h : Runs M D C orig S N s) {v : V} (hv : D v = none) :
    s.tm.S.fs v = S.fs v := CSteps.src hC (fun _ _ _ h => h.1) h0 (Reach.csteps h) hv

/-! ## C46: the contents -/

theorem begin_running {M : Sem B K A} {D : Desc V B A} {S S1 : St V B K A} (hb : Step M D S .begin S1) : ∀ v, S1.running v = none := by
  cases hb; intro v; rfl

/-- **C46, contents.**  After any history, consider `scons -jN` for the targets `orig`: any interleaving of the worker threads, of what they write to files
and when.  If some worker thread has left its loop, nothing failed, the build was not interrupted and no dependency cycle is reported, then every requested
target has the content that a build from scratch would give it. -/
theorem C46_parallel_build_is_clean {M : Sem B K A} (hM : M.Faithful) {D : Desc V B A} {S S1 : St V B K A} {C : TM.Cfg V} {orig : List V}
    (hist : Hist M D S) (hC : TM.Groups C (fun n => (D n).isSome)) (hb : Build.Step M D S .begin S1) {N : Nat} {s : Pool (CSt V B K A) V}
    (h : Runs M D C orig S1 N s) {i : Nat} (hi : s.pcs[i]? = some .halted) (hns : s.tm.T.stopped = false) (hok : s.tm.T.failedTasks = ∅)
    {foundCycle : V → Bool} (hcl : ¬ TM.cleanupRaises s.tm.T foundCycle) {t : V} (ht : t ∈ orig) :
    Clean M D s.tm.S.fs t (s.tm.S.fs t) := by
  have hp := Reach.proj (Q := fun _ _ => True) (fun _ _ _ _ => trivial) h
  have hover : s.tm.T.over := complete_is_over hp (hp.inv.halt i hi)
  exact C44_successful_run_builds_everything hM hist hC hb (CSteps.mono (fun _ _ _ h => h.1) (Reach.csteps h)) hover hns hok hcl ht

/-- **C46, -j does not matter.**  Two builds of the same targets with different numbers of threads (`-jN`, `-jN'`), different schedules and different previous
histories, but the same source files and the same description, both ending as above, give every requested target the same content. -/
theorem C46_same_result_for_every_N {M : Sem B K A} (hM : M.Faithful) {D : Desc V B A} {S S1 S' S1' : St V B K A} {C C' : TM.Cfg V} {orig orig' : List V}
    (hist : Hist M D S) (hist' : Hist M D S') (hC : TM.Groups C (fun n => (D n).isSome)) (hC' : TM.Groups C' (fun n => (D n).isSome))
    (hb : Build.Step M D S .begin S1) (hb' : Build.Step M D S' .begin S1') (hsrc : ∀ v, D v = none → S1.fs v = S1'.fs v)
    {N N' : Nat} {s s' : Pool (CSt V B K A) V} (h : Runs M D C orig S1 N s) (h' : Runs M D C' orig' S1' N' s')
    {i i' : Nat} (hi : s.pcs[i]? = some .halted) (hi' : s'.pcs[i']? = some .halted)
    (hns : s.tm.T.stopped = false) (hns' : s'.tm.T.stopped = false) (hok : s.tm.T.failedTasks = ∅) (hok' : s'.tm.T.failedTasks = ∅)
    {fc fc' : V → Bool} (hcl : ¬ TM.cleanupRaises s.tm.T fc) (hcl' : ¬ TM.cleanupRaises s'.tm.T fc')
    {t : V} (ht : t ∈ orig) (ht' : t ∈ orig') : s.tm.S.fs t = s'.tm.S.fs t := by
  have c1 := C46_parallel_build_is_clean hM hist hC hb h hi hns hok hcl ht
  have c2 := C46_parallel_build_is_clean hM hist' hC' hb' h' hi' hns' hok' hcl' ht'
  refine Clean.unique ((hist.reach hM).1.inv hM).1 c1 (c2.congr fun x hx => ?_)
  rw [C47_sources_are_never_touched hC (begin_running hb) h hx, C47_sources_are_never_touched hC' (begin_running hb') h' hx, hsrc x hx]

end Verif.Whole
