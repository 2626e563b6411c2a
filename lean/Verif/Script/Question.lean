import Verif.Build.NullBuild

/-!
# `scons -q`: C57

`QuestionTask` (`Script/Main.py:447-459`) in place of `BuildTask`: `prepare()` and `executed()` do nothing, and `execute()` sets the exit status 1 and stops the
Taskmaster when the first target is not up to date (or is a requested target that does not exist).  The walk, the scans and the up-to-date checks are those of
`Verif.Build.Compose`.

Simplifications: the empty `execute()` of an up-to-date node's task and its retirement happen at once (exact for one job); scans do not raise.
-/

set_option linter.unusedSectionVars false
set_option linter.unusedSimpArgs false
set_option linter.unusedVariables false

namespace Verif.Build

open Verif.Sig

variable {V B K A : Type} [DecidableEq V] [DecidableEq K] [Fintype V]

/-- A step of `scons -q` that finds nothing out of date.  `alt`: the targets in variant directories (`alter_targets`). -/
inductive QStep (M : Sem B K A) (D : Desc V B A) (C : TM.Cfg V) (orig alt : List V) : CSt V B K A → CSt V B K A → Prop
  /-- `n` is looked at, and is not ready (`Taskmaster/__init__.py:811-1013`) -/
  | walk {X : CSt V B K A} {T' T1 pushed post n} :
      TM.step C X.T (.consider alt (.ok (X.kidsOf D C n)) pushed (.internal none) post) = some T' → TM.nextCandidate X.T alt = some (T1, n) →
      TM.returned C X.T alt (.ok (X.kidsOf D C n)) pushed = none →
      QStep M D C orig alt X ⟨T', X.S, X.scanned D C n (.ok (X.kidsOf D C n))⟩
  /-- a node without a builder is up to date (`make_ready_current`, `:405-406`); if it was requested, it exists (`Main.py:453-454`) -/
  | source {X : CSt V B K A} {T' pushed post n} :
      TM.step C X.T (.consider alt (.ok (X.kidsOf D C n)) pushed (.internal none) post) = some T' →
      TM.returned C X.T alt (.ok (X.kidsOf D C n)) pushed = some n → D n = none → (n ∈ orig → (X.S.fs n).isSome) →
      QStep M D C orig alt X ⟨T', X.S.effSource n, X.scanned D C n (.ok (X.kidsOf D C n))⟩
  /-- all targets of an action are up to date -/
  | current {X : CSt V B K A} {T' pushed post n lf} :
      TM.step C X.T (.consider alt (.ok (X.kidsOf D C n)) pushed (.internal none) post) = some T' →
      TM.returned C X.T alt (.ok (X.kidsOf D C n)) pushed = some n → X.leaves D (C.targets n) lf → (X.S.checkAll M lf (C.targets n)).2 = true →
      QStep M D C orig alt X ⟨T', (X.S.checkAll M lf (C.targets n)).1.currentAll M lf (C.targets n), X.scanned D C n (.ok (X.kidsOf D C n))⟩

/-- `execute()` sets the exit status: the action of a node that is returned has a target that is out of date, or a requested source file does not exist. -/
def Stale (M : Sem B K A) (D : Desc V B A) (C : TM.Cfg V) (orig alt : List V) (X : CSt V B K A) : Prop :=
  ∃ pushed n, TM.returned C X.T alt (.ok (X.kidsOf D C n)) pushed = some n ∧
    ((∃ lf, X.leaves D (C.targets n) lf ∧ (X.S.checkAll M lf (C.targets n)).2 = false) ∨ (D n = none ∧ n ∈ orig ∧ X.S.fs n = none))

/-- Runs of `scons -q` up to the moment when it finds something or is done; the targets in variant directories are among `Q`. -/
inductive QSteps (M : Sem B K A) (D : Desc V B A) (C : TM.Cfg V) (orig : List V) (Q : V → Prop) : CSt V B K A → CSt V B K A → Prop
  | refl (X) : QSteps M D C orig Q X X
  | tail {X X' X''} (alt : List V) : QSteps M D C orig Q X X' → (∀ a ∈ alt, Q a) → QStep M D C orig alt X' X'' → QSteps M D C orig Q X X''

/-- **What `scons -q` answers**: exit status 0 when the walk is over, 1 when something was found out of date. -/
inductive Answers (M : Sem B K A) (D : Desc V B A) (C : TM.Cfg V) (orig : List V) (Q : V → Prop) (S1 : St V B K A) : CSt V B K A → Nat → Prop
  | upToDate {X} : QSteps M D C orig Q (CSt.init orig S1) X → X.T.cands = [] → X.T.tops = [] → Answers M D C orig Q S1 X 0
  | outOfDate {X} (alt : List V) : QSteps M D C orig Q (CSt.init orig S1) X → (∀ a ∈ alt, Q a) → Stale M D C orig alt X → Answers M D C orig Q S1 X 1

/-! ## A run of `-q` is a run that starts nothing -/

theorem QStep.cstep {M : Sem B K A} {D : Desc V B A} {C : TM.Cfg V} {orig alt : List V} {X X' : CSt V B K A} (h : QStep M D C orig alt X X') :
    ∃ scan pushed post, CStep M D C X (.consider alt scan pushed (.internal none) post) X' := by
  cases h with
  | walk h1 h2 h3 => exact ⟨_, _, _, .walk h1 h2 (Or.inr rfl) h3⟩
  | source h1 h2 h3 h4 => exact ⟨_, _, _, .source h1 (Or.inr rfl) h2 h3⟩
  | current h1 h2 h3 h4 => exact ⟨_, _, _, .current h1 (Or.inr rfl) h2 h3 h4⟩

theorem consider_failedTasks {C : TM.Cfg V} {S S' : TM.St V} {alt kids pushed post : List V}
    (hs : TM.step C S (.consider alt (.ok kids) pushed (.internal none) post) = some S') : S'.failedTasks = S.failedTasks ∧ S'.stopped = S.stopped := by
  simp only [TM.step] at hs
  split at hs
  · cases hs
  split at hs
  · cases hs
  rename_i S1 n hnc
  have g4 : S1.failedTasks = S.failedTasks := by
    unfold TM.nextCandidate at hnc
    split at hnc
    · simp only [Option.some.injEq, Prod.mk.injEq] at hnc; rw [← hnc.1]
    · split at hnc
      · cases hnc
      · simp only at hnc
        split at hnc
        · simp only [Option.some.injEq, Prod.mk.injEq] at hnc; rw [← hnc.1]
        · cases hnc
  obtain ⟨-, -, -, -, -, -, -, -, g9, -⟩ := TM.nextCandidate_fields hnc
  split at hs
  · cases hs
  · rename_i S2 hcn
    simp only [Option.some.injEq] at hs
    subst hs
    have := TM.considerNode_misc hcn
    exact ⟨this.1.trans g4, this.2.1.trans g9⟩
  · cases hs
  · rename_i S2 hcn
    rw [Option.map_eq_some_iff] at hs
    obtain ⟨S3, hS3, rfl⟩ := hs
    have h1 := TM.considerNode_misc hcn
    simp only [TM.handOut] at hS3
    have h2 := TM.postprocess_failedTasks hS3
    exact ⟨h2.1.trans (h1.1.trans g4), h2.2.2.2.2.1.trans (h1.2.1.trans g9)⟩

theorem QStep.tm {M : Sem B K A} {D : Desc V B A} {C : TM.Cfg V} {orig alt : List V} {X X' : CSt V B K A} (h : QStep M D C orig alt X X') :
    X'.T.failedTasks = X.T.failedTasks ∧ X'.T.stopped = X.T.stopped ∧ X'.T.active = X.T.active ∧ X'.T.started = X.T.started := by
  cases h with
  | walk h1 h2 h3 => exact ⟨(consider_failedTasks h1).1, (consider_failedTasks h1).2, TM.consider_idle (by simp) h1⟩
  | source h1 h2 h3 h4 => exact ⟨(consider_failedTasks h1).1, (consider_failedTasks h1).2, TM.consider_idle (by simp) h1⟩
  | current h1 h2 h3 h4 => exact ⟨(consider_failedTasks h1).1, (consider_failedTasks h1).2, TM.consider_idle (by simp) h1⟩

theorem QStep.fs {M : Sem B K A} {D : Desc V B A} {C : TM.Cfg V} {orig alt : List V} {X X' : CSt V B K A} (h : QStep M D C orig alt X X') :
    X'.S.fs = X.S.fs := by
  cases h with
  | walk h1 h2 h3 => rfl
  | source h1 h2 h3 h4 => rfl
  | @current T' pushed post n lf h1 h2 h3 h4 => exact (currentAll_fields M lf _ _).1.trans (checkAll_fields M lf _ _).1

theorem QSteps.csteps {M : Sem B K A} {D : Desc V B A} {C : TM.Cfg V} {orig : List V} {Q : V → Prop} {X X' : CSt V B K A} (h : QSteps M D C orig Q X X') :
    CSteps M D C NoIgnore X X' ∧ CSteps M D C (AltIn Q) X X' ∧ X'.T.failedTasks = X.T.failedTasks ∧ X'.T.stopped = X.T.stopped ∧
      X'.T.active = X.T.active ∧ X'.T.started = X.T.started ∧ X'.S.fs = X.S.fs := by
  induction h with
  | refl => exact ⟨.refl _, .refl _, rfl, rfl, rfl, rfl, rfl⟩
  | tail alt _ hQ hs ih =>
    obtain ⟨i1, i2, i3, i4, i5, i6, i7⟩ := ih
    obtain ⟨t1, t2, t3, t4⟩ := hs.tm
    obtain ⟨scan, pushed, post, hc⟩ := hs.cstep
    exact ⟨.tail (.consider alt scan pushed (.internal none) post) i1 trivial hc, .tail (.consider alt scan pushed (.internal none) post) i2 hQ hc, t1.trans i3, t2.trans i4, t3.trans i5, t4.trans i6, hs.fs.trans i7⟩

/-! ## A run that starts nothing found everything up to date -/

/-- The converse of `settled_up_to_date`. -/
theorem up_to_date_settled {M : Sem B K A} {D : Desc V B A} {S : St V B K A} {t : V} {sc : Scan V B A} (hsc : D t = some sc)
    (hI : InfosOK (S.world M) S.infos) (h : S.isCurrent M t (sc.result S.fs) = true) : Settled M D S.fs S.db t := by
  unfold St.isCurrent at h
  rw [C18_up_to_date_iff rfl hI (drift_none M S) (by simp)] at h
  obtain ⟨h1, h2, h3, h4⟩ := h
  intro sc' hsc'
  rw [hsc] at hsc'; cases hsc'
  refine ⟨Option.isSome_iff_exists.2 h1, h3, ?_⟩
  change (sc.result S.fs).children.length = (S.db t).sigs.length at h2
  change ∀ p ∈ (sc.result S.fs).children.zip (S.db t).sigs, _ at h4
  clear h1 h3
  generalize (S.db t).sigs = sg at *
  generalize (sc.result S.fs).children = ch at *
  induction ch generalizing sg with
  | nil => cases sg with
    | nil => rfl
    | cons => simp at h2
  | cons c cs ih =>
    cases sg with
    | nil => simp at h2
    | cons x xs =>
      simp only [List.map_cons, List.cons.injEq]
      refine ⟨?_, ih xs (by simpa using h2) (fun p hp => h4 p (by simp [hp]))⟩
      obtain ⟨n, e1, e2⟩ := h4 (c, x) (by simp)
      cases e1
      exact e2

/-- The state of a run, begun in `S1`, that has started nothing and in which nothing failed. -/
structure Calm (M : Sem B K A) (D : Desc V B A) (S1 : St V B K A) (X : CSt V B K A) : Prop where
  fs : X.S.fs = S1.fs
  active : X.T.active = []
  running : ∀ v, X.S.running v = none
  infos : InfosOK (X.S.world M) X.S.infos
  db : ∀ t, ¬ X.S.done t → X.S.db t = S1.db t
  settled : ∀ t, X.S.done t → Settled M D S1.fs S1.db t
  memo : ∀ n l sc, X.memo n = some l → D n = some sc → l = sc.result S1.fs

theorem Calm.leaf {M : Sem B K A} {D : Desc V B A} {S1 : St V B K A} {X : CSt V B K A} (h : Calm M D S1 X) {n : V} {l : Leaf V A}
    (hl : X.leafOf D n = some l) : ∃ sc, D n = some sc ∧ l = sc.result S1.fs := by
  unfold CSt.leafOf at hl
  cases hsc : D n with
  | none => simp [hsc] at hl
  | some sc =>
    refine ⟨sc, rfl, ?_⟩
    rw [hsc] at hl
    simp only [Option.map_some, Option.some.injEq] at hl
    subst hl
    cases hm : X.memo n with
    | none => simp [h.fs]
    | some l => simpa using h.memo n l sc hm hsc

theorem Calm.scanned {M : Sem B K A} {D : Desc V B A} {C : TM.Cfg V} {S1 : St V B K A} {X : CSt V B K A} (h : Calm M D S1 X) (n : V)
    (scan : TM.Scan V) : ∀ m l sc, X.scanned D C n scan m = some l → D m = some sc → l = sc.result S1.fs := by
  intro m l sc hm hsc
  have hcase : X.memo m = some l ∨ X.leafOf D m = some l := by
    cases scan with
    | raised => exact Or.inl hm
    | ok kids =>
      simp only [CSt.scanned] at hm
      split at hm
      · simp only at hm
        split at hm
        · exact Or.inr hm
        · exact Or.inl hm
      · exact Or.inl hm
  rcases hcase with e | e
  · exact h.memo m l sc e hsc
  · obtain ⟨sc', h1, h2⟩ := h.leaf e
    rw [hsc] at h1; cases h1; exact h2

/-- A task that fails after it was returned is recorded. -/
theorem returned_failure {C : TM.Cfg V} {S S' : TM.St V} {alt pushed post : List V} {scan : TM.Scan V} {b : Bool} {m : TM.FailMode} {n : V}
    (hn : n ∈ C.targets n) (hr : TM.returned C S alt scan pushed = some n)
    (hs : TM.step C S (.consider alt scan pushed (.excReady b m) post) = some S') : S'.failedTasks ≠ ∅ := by
  unfold TM.returned at hr
  simp only [TM.step] at hs
  split at hr
  · cases hr
  rename_i hst
  rw [if_neg hst] at hs
  split at hr
  · cases hr
  rename_i S1 k hnc
  simp only [hnc] at hs
  split at hr
  · rename_i S2 hcn
    simp only [Option.some.injEq] at hr; subst hr
    simp only [hcn, Option.map_eq_some_iff] at hs
    obtain ⟨S3, hS3, rfl⟩ := hs
    simp only [TM.handOut] at hS3
    have := (TM.failTask_fields hS3).1
    intro e
    simp only at e
    have : k ∈ (∅ : Finset V) := by rw [← e, this]; simp [hn]
    simp at this
  · cases hr

theorem Calm.step {M : Sem B K A} {D : Desc V B A} {C : TM.Cfg V} (hC : TM.Groups C (fun n => (D n).isSome)) {orig : List V} {S1 : St V B K A}
    {X X' : CSt V B K A} {l : TM.Lab V} (hJ : J M D C orig X) (h : Calm M D S1 X) (hni : l.noIgnore) (hs : CStep M D C X l X') (hst : X'.T.started = [])
    (hf : X'.T.failedTasks = ∅) : Calm M D S1 X' := by
  cases hs with
  | @walk T' T1 alt scan pushed fate post n h1 h2 h3 h4 =>
    obtain ⟨e1, e2⟩ := TM.consider_idle (fun x _ => by rw [h4]; simp) h1
    exact ⟨h.fs, e1.trans h.active, h.running, h.infos, h.db, h.settled, h.scanned n scan⟩
  | @source T' alt scan pushed post n h1 h2 h3 h4 =>
    obtain ⟨e1, e2⟩ := TM.consider_idle (by simp) h1
    refine ⟨h.fs, e1.trans h.active, h.running, h.infos, fun t ht => h.db t (fun e => ht (Or.inr e)), ?_, h.scanned n scan⟩
    rintro t (rfl | ht)
    · intro sc hsc; rw [h4] at hsc; cases hsc
    · exact h.settled t ht
  | @current T' alt scan pushed post n lf h1 h2 h3 h4 h5 =>
    obtain ⟨e1, e2⟩ := TM.consider_idle (by simp) h1
    obtain ⟨c1, c2, c3, c4, c5, c6⟩ := checkAll_fields M lf (C.targets n) X.S
    obtain ⟨a1, a2, a3, a4⟩ := checkAll_spec (lf := lf) (ts := C.targets n) h.infos
    have hcur := a4.1 h5
    generalize (X.S.checkAll M lf (C.targets n)).1 = Y at *
    obtain ⟨d1, d2, d3, d4, d5, d6, d7⟩ := currentAll_fields M lf (C.targets n) Y
    refine ⟨d1.trans (c1.trans h.fs), e1.trans h.active, fun v => by rw [d5, c5]; exact h.running v, ?_, ?_, ?_, h.scanned n scan⟩
    · simp only [d2]
      intro c k hk
      have := a1 c k hk
      rw [this]
      simp [World.diskCsig, St.world, d1]
    · intro t ht
      simp only [d4, c4, not_or] at ht
      rw [d7 t ht.1, c2]
      exact h.db t ht.2
    · intro t ht
      simp only [d4, c4] at ht
      rcases ht with ht | ht
      · obtain ⟨sc, hsc, e⟩ := h.leaf (h4 t ht)
        have hc := hcur t ht
        have hnd := (hJ.returned hC h3 ht).1
        rw [e, ← h.fs] at hc
        have := up_to_date_settled hsc h.infos hc
        intro sc' hsc'
        have := this sc' hsc'
        rw [h.fs, h.db t hnd] at this
        exact this
      · exact h.settled t ht
  | @start T' alt scan pushed post n lf h1 h2 h3 h4 h5 =>
    exfalso
    obtain ⟨-, S', k, hk, hcons⟩ := hC.consider hni h1
    rcases TM.started_of_step h1 with ⟨-, g⟩ | ⟨m, -, g, -⟩
    · cases hcons with
      | start hr ha => exact g k ⟨k, ha, hC.wf.self k⟩
      | skip _ hr => rw [h3] at hr; cases hr
      | failed _ m hm => simp [TM.Fate.failure] at hm
    · simp only at hst
      rw [g] at hst
      have := hC.wf.self m
      rw [(List.append_eq_nil_iff.1 hst).1] at this
      cases this
  | @early T' alt scan pushed fate m post n h1 h2 h3 h4 =>
    obtain ⟨e1, e2⟩ := TM.consider_idle (by rintro x rfl; simp [TM.Fate.failure] at h3) h1
    exact ⟨h.fs, e1.trans h.active, h.running, h.infos, h.db, h.settled, h.scanned n scan⟩
  | @removed T' alt scan pushed m post n lf gone h1 h2 h3 h4 h5 h6 =>
    exact absurd hf (returned_failure (hC.wf.self n) h3 h1)
  | finish h1 => simp [TM.step, h.active] at h1
  | fail h1 => simp [TM.step, h.active] at h1
  | flush h1 =>
    simp only [TM.step] at h1
    split at h1
    case isFalse => cases h1
    simp only [Option.some.injEq] at h1
    refine ⟨h.fs, ?_, h.running, h.infos, h.db, h.settled, h.memo⟩
    rw [← h1]; exact h.active
  | interrupt h1 =>
    simp only [TM.step, Option.some.injEq] at h1
    subst h1
    exact ⟨h.fs, h.active, h.running, h.infos, h.db, h.settled, h.memo⟩

theorem started_sub {C : TM.Cfg V} {S S' : TM.St V} {l : TM.Lab V} (h : TM.step C S l = some S') (hs : S'.started = []) : S.started = [] := by
  rcases TM.started_of_step h with ⟨h1, -⟩ | ⟨m, -, h2, -⟩
  · rw [← h1]; exact hs
  · rw [h2] at hs; exact (List.append_eq_nil_iff.1 hs).2

/-- A build, begun in `S1`, that starts nothing and in which nothing fails. -/
theorem CSteps.calm {M : Sem B K A} (hM : M.Faithful) {D : Desc V B A} (hD : WF D) {C : TM.Cfg V} (hC : TM.Groups C (fun n => (D n).isSome)) {orig : List V}
    {S1 : St V B K A} {X : CSt V B K A} (hrun : CSteps M D C NoIgnore (CSt.init orig S1) X) (hJ0 : J M D C orig (CSt.init orig S1))
    (h0 : Calm M D S1 (CSt.init orig S1)) (hst : X.T.started = []) (hf : X.T.failedTasks = ∅) :
    CSteps M D C (Tidy C) (CSt.init orig S1) X ∧ Calm M D S1 X := by
  induction hrun with
  | refl => exact ⟨.refl _, h0⟩
  | @tail X1 X2 l h1 hP hs ih =>
    have hf1 : X1.T.failedTasks = ∅ := by
      apply Finset.subset_empty.1
      intro f hff
      rw [← hf]; exact TM.failedTasks_mono hs.tm hff
    obtain ⟨i1, i2⟩ := ih (started_sub hs.tm hst) hf1
    have hJ := i1.j hM hD hC hJ0
    exact ⟨.tail l i1 (tidy_of_no_failure hC hJ hP hs hf) hs, i2.step hC hJ hP hs hst hf⟩
  | scribble t b h1 hr ih =>
    obtain ⟨i1, i2⟩ := ih hst hf
    rw [i2.running t] at hr; cases hr

theorem Calm.init {M : Sem B K A} {D : Desc V B A} {S S1 : St V B K A} {orig : List V} (h : Step M D S .begin S1) : Calm M D S1 (CSt.init orig S1) := by
  cases h
  exact ⟨rfl, rfl, fun _ => rfl, (fun c k hk => by cases hk), fun _ _ => rfl, (fun t ht => ht.elim), (fun n l sc h => by cases h)⟩

/-- In a walk confined to nodes whose stored information is that of the present files everything is up to date. -/
theorem Idle.upToDate {M : Sem B K A} {D : Desc V B A} {C : TM.Cfg V} {fs0 : Files V B} {Q : V → Prop} {X : CSt V B K A}
    (hpeer : ∀ t, Q t → ∀ m ∈ C.targets t, Q m) (h : Idle M D fs0 Q X) {n : V} {lf : V → Leaf V A} (hQ : Q n) (hl : X.leaves D (C.targets n) lf) :
    (X.S.checkAll M lf (C.targets n)).2 = true := by
  rw [(checkAll_spec h.infos).2.2.2]
  intro t ht
  have hlt := hl t ht
  cases hsc : D t with
  | none => simp [CSt.leafOf, hsc] at hlt
  | some sc =>
    rw [h.leaf hsc] at hlt
    rw [← Option.some.inj hlt]
    have hS := h.settled t (hpeer n hQ t ht)
    rw [← h.fs] at hS ⊢
    exact settled_up_to_date hsc hS h.infos

/-- If one run begun in `S1` starts nothing, any other run begun in `S1` for targets that the first one finished stays among the nodes the first one finished
and finds them up to date. -/
theorem idle_of_calm {M : Sem B K A} (hM : M.Faithful) {D : Desc V B A} {S S1 : St V B K A} {X Y : CSt V B K A} {C : TM.Cfg V} {orig orig2 : List V}
    (hr : Reach M WF Legal D S) (hC : TM.Groups C (fun n => (D n).isSome)) (hb : Step M D S .begin S1)
    (hrun : CSteps M D C NoIgnore (CSt.init orig S1) X) (hst : X.T.started = []) (hf : X.T.failedTasks = ∅)
    (hfin : ∀ t ∈ orig2, X.S.done t) (hrun2 : CSteps M D C (AltIn X.S.done) (CSt.init orig2 S1) Y) :
    Idle M D S1.fs X.S.done Y ∧ ∀ t, X.S.done t → ∀ m ∈ C.targets t, X.S.done m := by
  have hD := (hr.inv hM).1
  have hJ0 : J M D C orig (CSt.init orig S1) := J.init ⟨_, hr, hb⟩
  obtain ⟨htidy, hcalm⟩ := hrun.calm hM hD hC hJ0 (Calm.init hb) hst hf
  have hJ := htidy.j hM hD hC hJ0
  have hset := hJ.reach.settled hM hJ.busy
  have hpre : PreDone C X := PreDone.steps hM hD hC htidy hJ0 (by
    cases hb
    rintro v (hv | hv)
    · exact hv.elim
    · cases hv)
  refine ⟨?_, hJ.sync⟩
  have hinit : Idle M D S1.fs X.S.done (CSt.init orig2 S1) := by
    refine ⟨rfl, rfl, rfl, fun v => ?_, ?_, fun t ht => hcalm.settled t ht, fun n l sc h => (by cases h), ⟨by simp [CSt.init, TM.St.init], hfin, by simp [CSt.init, TM.St.init],
      by simp [CSt.init, TM.St.init]⟩⟩
    · cases hb; rfl
    · cases hb; intro c k hk; cases hk
  clear hfin
  induction hrun2 with
  | refl => exact hinit
  | @tail Y1 Y2 l h1 hP hs ih =>
    refine Idle.step hD (fun t ht => ?_) (fun t ht => hpre t (Or.inl ht)) hJ.sync ih hP hs
    rw [← hcalm.fs]; exact (hset t ht).1
  | scribble t b _ hr ih => rw [ih.running t] at hr; cases hr

/-! ## C57 -/

/-- A run that is over and in which nothing failed has finished everything requested, unless a cycle is reported. -/
theorem finished_of_over {M : Sem B K A} {D : Desc V B A} {X : CSt V B K A} {C : TM.Cfg V} {orig : List V} (hC : TM.Groups C (fun n => (D n).isSome))
    (hJ : J M D C orig X) (hover : X.T.over) (hns : X.T.stopped = false) (hok : X.T.failedTasks = ∅) {foundCycle : V → Bool}
    (hcl : ¬ TM.cleanupRaises X.T foundCycle) : ∀ t ∈ orig, X.S.done t := by
  intro t ht
  apply hJ.done1
  by_contra hnd
  have hreach : TM.Reach C (TM.PlainLab C) orig X.T := TM.Steps.mono (fun _ l _ => hC.noSELab l) hJ.tm
  exact hcl (TM.C06_unbuilt_target_is_reported (hC.project orig) hreach hover hns foundCycle ht hnd
    (by rintro ⟨f, hf, _⟩; rw [hok] at hf; simp at hf))

/-- **C57, `scons -q` changes no file.** -/
theorem C57_question_changes_no_file {M : Sem B K A} {D : Desc V B A} {C : TM.Cfg V} {orig : List V} {Q : V → Prop} {S1 : St V B K A} {X : CSt V B K A} {code : Nat}
    (h : Answers M D C orig Q S1 X code) : X.S.fs = S1.fs ∧ X.T.started = [] := by
  cases h with
  | upToDate h1 _ _ => exact ⟨h1.csteps.2.2.2.2.2.2, h1.csteps.2.2.2.2.2.1⟩
  | outOfDate alt h1 _ _ => exact ⟨h1.csteps.2.2.2.2.2.2, h1.csteps.2.2.2.2.2.1⟩

/-- **C57, exit status 0 is true.**  After any history, if `scons -q` for the targets `orig` exits with status 0 (and reports no cycle), then `scons` for the same targets, with
any schedule, starts no action and changes no file. -/
theorem C57_zero_means_nothing_to_do {M : Sem B K A} (hM : M.Faithful) {D : Desc V B A} {S S1 : St V B K A} {X Y : CSt V B K A} {C : TM.Cfg V}
    {orig : List V} {Q : V → Prop} (hist : Hist M D S) (hC : TM.Groups C (fun n => (D n).isSome)) (hb : Step M D S .begin S1)
    (hq : Answers M D C orig Q S1 X 0) {foundCycle : V → Bool} (hcl : ¬ TM.cleanupRaises X.T foundCycle)
    (hrun : CSteps M D C (AltIn X.S.done) (CSt.init orig S1) Y) : Y.T.started = [] ∧ Y.S.fs = S.fs := by
  obtain ⟨hr, -⟩ := hist.reach hM
  have hfs : S1.fs = S.fs := by cases hb; rfl
  cases hq with
  | upToDate h1 h2 h3 =>
    obtain ⟨i1, i2, i3, i4, i5, i6, i7⟩ := h1.csteps
    have hJ := i1.j_of_no_failure hM (hr.inv hM).1 hC i3 (J.init ⟨_, hr, hb⟩)
    have hfin := finished_of_over hC hJ ⟨h2, Or.inl h3, i5⟩ i4 i3 hcl
    obtain ⟨hI, -⟩ := idle_of_calm hM hr hC hb i1 i6 i3 hfin hrun
    exact ⟨hI.started, hI.fs.trans hfs⟩

/-- **C57, exit status 1 is true.**  After any history, if `scons -q` for the targets `orig` exits with status 1, then every run of `scons` for the same targets that ends normally without a failure
has started an action — or a requested file does not exist and has no builder. -/
theorem C57_one_means_something_to_do {M : Sem B K A} (hM : M.Faithful) {D : Desc V B A} {S S1 : St V B K A} {X Y : CSt V B K A} {C : TM.Cfg V}
    {orig : List V} (hist : Hist M D S) (hC : TM.Groups C (fun n => (D n).isSome)) (hb : Step M D S .begin S1)
    (hrun : CSteps M D C NoIgnore (CSt.init orig S1) Y) (hover : Y.T.over) (hns : Y.T.stopped = false) (hok : Y.T.failedTasks = ∅)
    {foundCycle : V → Bool} (hcl : ¬ TM.cleanupRaises Y.T foundCycle) (hq : Answers M D C orig Y.S.done S1 X 1) :
    Y.T.started ≠ [] ∨ ∃ t ∈ orig, D t = none ∧ S.fs t = none := by
  obtain ⟨hr, -⟩ := hist.reach hM
  by_contra hcon
  simp only [not_or, not_not, not_exists, not_and] at hcon
  obtain ⟨hst, hno⟩ := hcon
  have hJ := hrun.j_of_no_failure hM (hr.inv hM).1 hC hok (J.init ⟨_, hr, hb⟩)
  have hfin := finished_of_over hC hJ hover hns hok hcl
  cases hq with
  | outOfDate alt h1 halt h2 =>
    obtain ⟨hI, hpeer⟩ := idle_of_calm hM hr hC hb hrun hst hok hfin h1.csteps.2.1
    obtain ⟨pushed, n, hret, hcase⟩ := h2
    obtain ⟨-, -, T1, hnc⟩ := returned_facts hret
    have hQ : Y.S.done n := (hI.inside.nextCandidate halt hnc).2
    rcases hcase with ⟨lf, hl, hc⟩ | ⟨hd, ho, hn⟩
    · rw [hI.upToDate hpeer hQ hl] at hc; cases hc
    · rw [hI.fs] at hn
      refine hno n ho hd ?_
      cases hb
      exact hn

end Verif.Build
