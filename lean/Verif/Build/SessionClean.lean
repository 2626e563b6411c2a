import Verif.Build.Session

/-!
# C74: sessions end with what a clean build makes

Combines C74 (sessions are separate runs) with C44 (separate runs build everything).
-/

set_option linter.unusedSectionVars false
set_option linter.unusedSimpArgs false
set_option linter.unusedVariables false

namespace Verif.Build

open Verif.Sig

variable {V B K A : Type} [DecidableEq V] [DecidableEq K] [Fintype V]

theorem finishAll_db (M : Sem B K A) (ex : V → Bool) (rs : V → Run V B A) (views : V → V → Option B) (ts : List V) (S : St V B K A) {x : V} (hx : x ∉ ts) :
    (S.finishAll M ex rs views ts).db x = S.db x := by
  induction ts generalizing S with
  | nil => rfl
  | cons t ts ih =>
    simp only [List.mem_cons, not_or] at hx
    by_cases he : ex t = true
    · have e : S.finishAll M ex rs views (t :: ts) = (S.effFinish M t (rs t) (views t)).finishAll M ex rs views ts := by simp [St.finishAll, he]
      rw [e, ih _ hx.2]; simp [St.effFinish, hx.1]
    · have e : S.finishAll M ex rs views (t :: ts) = (S.effFail t (some ((rs t).output M (views t)))).finishAll M ex rs views ts := by simp [St.finishAll, he]
      rw [e, ih _ hx.2]; simp [St.effFail, St.write]

/-- The stored information of files without builders is as it was, and only targets are being made. -/
structure SrcKept (D : Desc V B A) (db : V → BInfo V K) (X : CSt V B K A) : Prop where
  db : ∀ v, D v = none → X.S.db v = db v
  act : ∀ n ∈ X.T.active, (D n).isSome

theorem SrcKept.step {M : Sem B K A} {D : Desc V B A} {C : TM.Cfg V} (hC : TM.Groups C (fun n => (D n).isSome)) {db : V → BInfo V K}
    {X X' : CSt V B K A} {l : TM.Lab V} (h : SrcKept D db X) (hni : l.noIgnore) (hs : CStep M D C X l X') : SrcKept D db X' := by
  have hsrcT : ∀ {n v : V}, (D n).isSome → v ∈ C.targets n → D v ≠ none := by
    intro n v hn hv e
    have := hC.all n hn v hv
    rw [e] at this; cases this
  have hDt : ∀ {n} {lf : V → Leaf V A}, X.leaves D (C.targets n) lf → ∀ t ∈ C.targets n, (D t).isSome := by
    intro n lf hl t ht
    have := hl t ht
    unfold CSt.leafOf at this
    cases hD : D t with
    | none => rw [hD] at this; cases this
    | some sc => rfl
  cases hs with
  | @walk T' T1 alt scan pushed fate post n hstep hnc hok hret =>
    obtain ⟨-, S1, n', hnc', hcons⟩ := hC.consider hni hstep
    have hact : T'.active = X.T.active := by
      cases hcons with
      | skip _ _ hf => exact hf.active
      | raised _ _ _ _ ha _ => exact ha
      | failed _ _ _ hr _ _ => rw [hret] at hr; cases hr
      | current hr => rw [hret] at hr; cases hr
      | start hr => rw [hret] at hr; cases hr
    exact ⟨h.db, fun n hn => h.act n (by rw [hact] at hn; exact hn)⟩
  | @source T' alt scan pushed post n hstep hok hret hD =>
    obtain ⟨-, S1', n', hnc', hcons⟩ := hC.consider hni hstep
    have hact : T'.active = X.T.active := by
      cases hcons with
      | skip _ hr _ => rw [hret] at hr; cases hr
      | failed _ _ hf _ _ _ => cases hf
      | current _ ha _ _ _ => exact ha
    exact ⟨h.db, fun n hn => h.act n (by rw [hact] at hn; exact hn)⟩
  | @current T' alt scan pushed post n lf hstep hok hret hl hu =>
    obtain ⟨-, S1', n', hnc', hcons⟩ := hC.consider hni hstep
    have hact : T'.active = X.T.active := by
      cases hcons with
      | skip _ hr _ => rw [hret] at hr; cases hr
      | failed _ _ hf _ _ _ => cases hf
      | current _ ha _ _ _ => exact ha
    obtain ⟨-, -, -, -, -, -, c7⟩ := currentAll_fields M lf (C.targets n) (X.S.checkAll M lf (C.targets n)).1
    obtain ⟨-, k2, -⟩ := checkAll_fields M lf (C.targets n) X.S
    refine ⟨fun v hv => ?_, fun n hn => h.act n (by rw [hact] at hn; exact hn)⟩
    simp only
    rw [c7 v (fun e => hsrcT (hDt hl n (hC.wf.self n)) e hv), k2]
    exact h.db v hv
  | @start T' alt scan pushed post n lf hstep hok hret hl hu =>
    obtain ⟨-, -, S1, hnc⟩ := returned_facts hret
    obtain ⟨-, S1', n', hnc', hcons⟩ := hC.consider hni hstep
    have hnn : n' = n := by rw [hnc] at hnc'; simp only [Option.some.injEq, Prod.mk.injEq] at hnc'; exact hnc'.2.symm
    have hact : T'.active = n :: X.T.active := by
      cases hcons with
      | skip _ hr _ => rw [hret] at hr; cases hr
      | failed _ _ hf _ _ _ => cases hf
      | start _ ha _ _ _ => rw [ha, hnn]
    obtain ⟨-, c2, -⟩ := startAll_fields lf (C.targets n) (X.S.checkAll M lf (C.targets n)).1
    obtain ⟨-, k2, -⟩ := checkAll_fields M lf (C.targets n) X.S
    refine ⟨fun v hv => ?_, fun m hm => ?_⟩
    · simp only [c2, k2]; exact h.db v hv
    · rw [hact] at hm
      rcases List.mem_cons.1 hm with rfl | hm
      · exact hDt hl m (hC.wf.self m)
      · exact h.act m hm
  | @early T' alt scan pushed fate m post n hstep hok hf hret =>
    obtain ⟨-, S1', n', hnc', hcons⟩ := hC.consider hni hstep
    have hact : T'.active = X.T.active := by
      cases hcons with
      | skip _ hr _ => rw [hret] at hr; cases hr
      | raised _ hr => rw [hret] at hr; cases hr
      | failed _ _ _ _ ha _ => exact ha
      | current => cases hf
      | start => cases hf
    exact ⟨h.db, fun n hn => h.act n (by rw [hact] at hn; exact hn)⟩
  | @removed T' alt scan pushed m post n lf gone hstep hok hret hl hu hg =>
    obtain ⟨-, S1', n', hnc', hcons⟩ := hC.consider hni hstep
    have hact : T'.active = X.T.active := by
      cases hcons with
      | skip _ hr _ => rw [hret] at hr; cases hr
      | failed _ _ _ _ ha _ => exact ha
    obtain ⟨-, c2, -⟩ := startAll_fields lf gone (X.S.checkAll M lf (C.targets n)).1
    obtain ⟨-, k2, -⟩ := checkAll_fields M lf (C.targets n) X.S
    obtain ⟨-, f2, -⟩ := failAll_fields (fun _ => none) gone ((X.S.checkAll M lf (C.targets n)).1.startAll lf gone)
    refine ⟨fun v hv => ?_, fun n hn => h.act n (by rw [hact] at hn; exact hn)⟩
    simp only [f2, c2, k2]; exact h.db v hv
  | @finish T' n post rs views hstep hrun =>
    obtain ⟨hna, hact, -⟩ := hC.finish_ok hstep
    refine ⟨fun v hv => ?_, fun m hm => h.act m ?_⟩
    · simp only
      rw [finishAll_db _ _ _ _ _ _ (fun e => hsrcT (h.act n hna) e hv)]
      exact h.db v hv
    · simp only [hact] at hm; exact List.mem_of_mem_erase hm
  | @fail T' n m post left hstep =>
    have hmi : m ≠ .ignore := by rintro rfl; exact hni
    obtain ⟨hna, hact, -⟩ := hC.finish_fail hmi hstep
    obtain ⟨-, f2, -⟩ := failAll_fields left (C.targets n) X.S
    refine ⟨fun v hv => ?_, fun m hm => h.act m ?_⟩
    · simp only [f2]; exact h.db v hv
    · simp only [hact] at hm; exact List.mem_of_mem_erase hm
  | @flush T' hstep =>
    have hact : T'.active = X.T.active := by
      simp only [TM.step] at hstep
      split at hstep
      case isFalse => cases hstep
      injection hstep with hstep; rw [← hstep]; rfl
    exact ⟨h.db, fun n hn => h.act n (by rw [hact] at hn; exact hn)⟩
  | @interrupt T' hstep =>
    have hact : T'.active = X.T.active := by
      simp only [TM.step, Option.some.injEq] at hstep; rw [← hstep]
    exact ⟨h.db, fun n hn => h.act n (by rw [hact] at hn; exact hn)⟩

theorem CSteps.srcKept {M : Sem B K A} {D : Desc V B A} {C : TM.Cfg V} (hC : TM.Groups C (fun n => (D n).isSome)) {orig : List V}
    {S : St V B K A} {X : CSt V B K A} (h : CSteps M D C NoIgnore (CSt.init orig S) X) : SrcKept D S.db X := by
  generalize hX0 : CSt.init orig S = X0 at h
  induction h with
  | refl =>
    subst hX0
    exact ⟨fun _ _ => rfl, fun n hn => by simp [CSt.init, TM.St.init] at hn⟩
  | tail l _ hP hs ih => exact ih.step hC hP hs
  | @scribble X1 t b _ hr ih => exact ⟨fun v hv => by simp only [St.write]; exact ih.db v hv, ih.act⟩

theorem CSteps.weaken {M : Sem B K A} {D : Desc V B A} {C : TM.Cfg V} {P Q : CSt V B K A → TM.Lab V → CSt V B K A → Prop} (hPQ : ∀ X l X', P X l X' → Q X l X')
    {X X' : CSt V B K A} (h : CSteps M D C P X X') : CSteps M D C Q X X' := by
  induction h with
  | refl => exact .refl _
  | tail l _ hP hs ih => exact .tail l ih (hPQ _ _ _ hP) hs
  | scribble t b _ hr ih => exact .scribble t b ih hr

theorem CSteps.tidy {M : Sem B K A} (hM : M.Faithful) {D : Desc V B A} (hD : WF D) {C : TM.Cfg V}
    (hC : TM.Groups C (fun n => (D n).isSome)) {orig : List V} {X X' : CSt V B K A} (h : CSteps M D C NoIgnore X X')
    (hf : X'.T.failedTasks = ∅) (h0 : J M D C orig X) : CSteps M D C (Tidy C) X X' := by
  induction h with
  | refl => exact .refl _
  | @tail X1 X2 l h1 hP hs ih =>
    have hf1 : X1.T.failedTasks = ∅ := by
      apply Finset.subset_empty.1
      intro f hff
      rw [← hf]; exact TM.failedTasks_mono hs.tm hff
    exact .tail l (ih hf1) (tidy_of_no_failure hC (h1.j_of_no_failure hM hD hC hf1 h0) hP hs hf) hs
  | scribble t b _ hr ih => exact .scribble t b (ih hf) hr

/-- The user edits sources; of files that are built they only delete some. -/
def LegalEvent (D : Desc V B A) : Event V B → Prop
  | .edit v b => b = none ∨ D v = none
  | .build _ => True

/-- A state of `Verif.Build.Props` with these files and this database. -/
structure AtRest (M : Sem B K A) (D : Desc V B A) (fs : Files V B) (db : V → BInfo V K) (S : St V B K A) : Prop where
  hist : Hist M D S
  fs : S.fs = fs
  disk : S.disk = db
  busy : S.busy = false
  src : ∀ v, D v = none → (db v).bactsig = none

theorem AtRest.run {M : Sem B K A} (hM : M.Faithful) {D : Desc V B A} (hD : WF D) {C : TM.Cfg V} (hC : TM.Groups C (fun n => (D n).isSome))
    {fs : Files V B} {db : V → BInfo V K} {S : St V B K A} (h : AtRest M D fs db S) {alter : V → List V} {orig : List V} {X : CSt V B K A}
    (hrun : CSteps M D C (CmdStep alter orig) (CSt.init orig { (St.rest fs db : St V B K A) with busy := true }) X) (hok : Succeeded X) :
    (∃ S', AtRest M D X.S.fs X.S.db S') ∧ ∀ t ∈ orig, Clean M D X.S.fs t (X.S.fs t) := by
  have hbegin : Step M D S .begin ({ (St.rest fs db : St V B K A) with busy := true }) := by
    have := Step.begin (M := M) (D := D) S h.busy
    have e : ({ S with busy := true, done := fun _ => False, running := fun _ => none, infos := fun _ => {}, db := S.disk } : St V B K A) =
        { (St.rest fs db : St V B K A) with busy := true } := by
      have h1 := h.fs
      have h2 := h.disk
      cases S
      simp only at h1 h2
      subst h1 h2
      rfl
    rwa [e] at this
  have hno : CSteps M D C NoIgnore (CSt.init orig { (St.rest fs db : St V B K A) with busy := true }) X := hrun.weaken (fun _ _ _ h => h.1)
  obtain ⟨hr, -⟩ := h.hist.reach hM
  have hJ0 : J M D C orig (CSt.init orig { (St.rest fs db : St V B K A) with busy := true }) := J.init ⟨_, hr, hbegin⟩
  have hJ := hno.j_of_no_failure hM hD hC hok.noFailure hJ0
  have htidy := hno.tidy hM hD hC hok.noFailure hJ0
  refine ⟨?_, fun t ht => C44_successful_run_builds_everything hM h.hist hC hbegin hno hok.over hok.notStopped hok.noFailure hok.noCycle ht⟩
  have hk : Touched C (fun _ => True) X := hrun.touched hC ⟨fun _ => rfl, fun _ h => h, fun _ => rfl⟩
    ⟨fun _ _ _ _ => trivial, fun _ _ _ _ => trivial, fun _ _ _ _ => trivial, fun _ _ _ _ => trivial⟩ (fun _ _ => trivial) (fun _ _ => trivial) (fun _ _ _ _ => trivial)
  have hnone : ∀ t, X.S.running t = none := by
    intro t
    by_contra hne
    obtain ⟨n, hn, -⟩ := hk.run t (Option.isSome_iff_ne_none.2 hne)
    rw [hok.over.2.2] at hn; cases hn
  have hfin : Step M D X.S .finishRun { X.S with busy := false, disk := X.S.db } := .finishRun X.S hJ.busy hnone
  refine ⟨_, .build C orig h.hist hC hbegin htidy hok.over.2.2 hfin, rfl, rfl, rfl, fun v hv => ?_⟩
  rw [(hno.srcKept hC).db v hv]
  exact h.src v hv

/-- Separate runs leave the directory in a state of C44. -/
theorem Separate.atRest {M : Sem B K A} (hM : M.Faithful) {D : Desc V B A} (hD : WF D) {C : TM.Cfg V} (hC : TM.Groups C (fun n => (D n).isSome))
    {alter : V → List V} {ok : List V → CSt V B K A → Prop} (hok : ∀ o X, ok o X → Succeeded X) {fs : Files V B} {db : V → BInfo V K} {S : St V B K A} (h0 : AtRest M D fs db S)
    {es : List (Event V B)} {fs' : Files V B} {db' : V → BInfo V K} (h : Separate M D C alter ok fs db es fs' db') (hes : ∀ e ∈ es, LegalEvent D e) :
    ∃ S', AtRest M D fs' db' S' := by
  induction h with
  | nil => exact ⟨S, h0⟩
  | @edit es fs1 db1 v b _ ih =>
    obtain ⟨S1, h1⟩ := ih (fun e he => hes e (by simp [he]))
    have hl : LegalEvent D (.edit v b : Event V B) := hes _ (by simp)
    refine ⟨{ S1 with fs := fun x => if x = v then b else S1.fs x }, .edit v b h1.hist ?_ (.edit S1 v b h1.busy), ?_, h1.disk, h1.busy, h1.src⟩
    · rcases hl with hl | hl
      · exact Or.inl hl
      · exact Or.inr (by rw [h1.disk]; exact h1.src v hl)
    · simp only [h1.fs]
  | @build es fs1 db1 X orig _ hrun hk ih =>
    obtain ⟨S1, h1⟩ := ih (fun e he => hes e (by simp [he]))
    exact (h1.run hM hD hC hrun (hok _ _ hk)).1

/-- **C74 (the result).**  After a session in which the user has edited source files and deleted others, and every command was carried out and leaves nothing it does not
find again, another such command makes of every file it was asked for what a build from scratch would make of the source files there are. -/
theorem C74_session_builds_everything {M : Sem B K A} (hM : M.Faithful) {D : Desc V B A} (hD : WF D) {C : TM.Cfg V} (hC : TM.Groups C (fun n => (D n).isSome))
    {alter : V → List V} {fs : Files V B} {es : List (Event V B)} (hes : ∀ e ∈ es, LegalEvent D e) {P : Prompt V B K A}
    (h : Session M D C alter (Proper D C alter) es (Prompt.fresh fs fun _ => {}) P) {orig : List V} {X : CSt V B K A}
    (hrun : CSteps M D C (CmdStep alter orig) (P.start orig) X) (hok : Succeeded X) :
    ∀ t ∈ orig, Clean M D X.S.fs t (X.S.fs t) := by
  obtain ⟨fs', db', rfl, hsep⟩ := (C74_session_equals_separate_runs hC).1 h
  have h0 : AtRest M D fs (fun _ => {}) (St.rest fs fun _ => {} : St V B K A) := ⟨.init D fs hD, rfl, rfl, rfl, fun _ _ => rfl⟩
  obtain ⟨S, hS⟩ := hsep.atRest hM hD hC (fun _ _ h => h.1) h0 hes
  exact (hS.run hM hD hC hrun hok).2

/-- **C74 (the result, plain projects).**  In a project without `Requires()`, in which every action makes one file and no scanner reads a file that is built, every command
that is carried out, after any session of commands that were, makes of every file it was asked for what a build from scratch would make. -/
theorem C74_plain_session_builds_everything {M : Sem B K A} (hM : M.Faithful) {D : Desc V B A} (hD : WF D) {C : TM.Cfg V} (hC : TM.Groups C (fun n => (D n).isSome))
    (hsc : ScansSources D) (hone : ∀ n, C.targets n = [n]) (hpre : ∀ n, C.prereqs n = [])
    {alter : V → List V} {fs : Files V B} {es : List (Event V B)} (hes : ∀ e ∈ es, LegalEvent D e) {P : Prompt V B K A}
    (h : Session M D C alter (fun _ X => Succeeded X) es (Prompt.fresh fs fun _ => {}) P) {orig : List V} {X : CSt V B K A}
    (hrun : CSteps M D C (CmdStep alter orig) (P.start orig) X) (hok : Succeeded X) :
    ∀ t ∈ orig, Clean M D X.S.fs t (X.S.fs t) := by
  obtain ⟨fs', db', rfl, hsep⟩ := (C74_plain_project hC hsc hone hpre).1 h
  have h0 : AtRest M D fs (fun _ => {}) (St.rest fs fun _ => {} : St V B K A) := ⟨.init D fs hD, rfl, rfl, rfl, fun _ _ => rfl⟩
  obtain ⟨S, hS⟩ := hsep.atRest hM hD hC (fun _ _ h => h) h0 hes
  exact (hS.run hM hD hC hrun hok).2

end Verif.Build
