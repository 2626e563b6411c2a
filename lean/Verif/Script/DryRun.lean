import Verif.Script.Question

/-!
# `scons -n`: C63

Under `-n` `SCons.Action.execute_actions` and `SCons.Node.do_store_info` are false (`Script/Main.py:1237-1238`): the Taskmaster, the scans and the up-to-date checks run as in a build;
an action is printed and counts as successful (`Action.py:655-720`), the removal of old targets and the creation of directories in `prepare()` are actions and do
nothing (`FS.py:345-376`, `:3145-3180`), `store_info_file` does nothing (`Node/__init__.py:341-348`), and `SConsign.write` is not called (`Main.py:1403-1409`).  `built()` is called
(`Node/__init__.py:779-814`): it makes the waiting parents scan again and computes the content signature of the target from the file that is there.

Simplifications: those of `Verif.Build.Compose`; no derived-file cache (see `Verif.Cache.Exec` for what `-n` does with one).
-/

set_option linter.unusedSectionVars false
set_option linter.unusedSimpArgs false
set_option linter.unusedVariables false

namespace Verif.Build

open Verif.Sig

variable {V B K A : Type} [DecidableEq V] [DecidableEq K] [Fintype V]

/-- `visited()` of the up-to-date targets `ts` under `-n`: nothing is stored. -/
def St.dryCurrent (S : St V B K A) (ts : List V) : St V B K A := { S with done := fun x => x ∈ ts ∨ S.done x }

/-- `built()` of the announced targets `ts` (those `ex` that are still EXECUTING) under `-n`: their content signatures are computed from the files as they are. -/
def St.dryBuilt (M : Sem B K A) (ex : V → Bool) (ts : List V) (S : St V B K A) : St V B K A :=
  { S with
    infos := fun x => if x ∈ ts ∧ ex x = true then { csig := some (M.hash (M.see (S.fs x))) } else S.infos x
    done := fun x => (x ∈ ts ∧ ex x = true) ∨ S.done x }

/-- Steps of `scons -n`. -/
inductive NStep (M : Sem B K A) (D : Desc V B A) (C : TM.Cfg V) : CSt V B K A → TM.Lab V → CSt V B K A → Prop
  /-- `n` is looked at but not returned, or its scan raises and the task fails (`Taskmaster/__init__.py:811-1013`) -/
  | walk {X : CSt V B K A} {T' T1 alt scan pushed fate post n} :
      TM.step C X.T (.consider alt scan pushed fate post) = some T' → TM.nextCandidate X.T alt = some (T1, n) → X.scanOK D C n scan →
      TM.returned C X.T alt scan pushed = none →
      NStep M D C X (.consider alt scan pushed fate post) ⟨T', X.S, X.scanned D C n scan⟩
  /-- a source node is returned; it is up to date -/
  | source {X : CSt V B K A} {T' alt scan pushed post n} :
      TM.step C X.T (.consider alt scan pushed (.internal none) post) = some T' → X.scanOK D C n scan →
      TM.returned C X.T alt scan pushed = some n → D n = none →
      NStep M D C X (.consider alt scan pushed (.internal none) post) ⟨T', X.S.effSource n, X.scanned D C n scan⟩
  /-- all targets of an action are found up to date -/
  | current {X : CSt V B K A} {T' alt scan pushed post n lf} :
      TM.step C X.T (.consider alt scan pushed (.internal none) post) = some T' → X.scanOK D C n scan →
      TM.returned C X.T alt scan pushed = some n → X.leaves D (C.targets n) lf → (X.S.checkAll M lf (C.targets n)).2 = true →
      NStep M D C X (.consider alt scan pushed (.internal none) post)
        ⟨T', (X.S.checkAll M lf (C.targets n)).1.dryCurrent (C.targets n), X.scanned D C n scan⟩
  /-- a target of an action is found out of date, and the action is announced instead of executed -/
  | announce {X : CSt V B K A} {T' alt scan pushed post n lf} :
      TM.step C X.T (.consider alt scan pushed .start post) = some T' → X.scanOK D C n scan →
      TM.returned C X.T alt scan pushed = some n → X.leaves D (C.targets n) lf → (X.S.checkAll M lf (C.targets n)).2 = false →
      NStep M D C X (.consider alt scan pushed .start post) ⟨T', (X.S.checkAll M lf (C.targets n)).1, X.scanned D C n scan⟩
  /-- a node is returned and its task fails before execution (`prepare()` raises: missing source, …) -/
  | early {X : CSt V B K A} {T' alt scan pushed fate m post n} :
      TM.step C X.T (.consider alt scan pushed fate post) = some T' → X.scanOK D C n scan → TM.Fate.failure fate = some m →
      TM.returned C X.T alt scan pushed = some n →
      NStep M D C X (.consider alt scan pushed fate post) ⟨T', X.S, X.scanned D C n scan⟩
  /-- the announced action counts as successful -/
  | finish {X : CSt V B K A} {T' n post} :
      TM.step C X.T (.finish n none post) = some T' →
      NStep M D C X (.finish n none post)
        ⟨T', X.S.dryBuilt M (fun t => X.T.state t = .executing) (C.targets n), fun x => if X.forgets C n x then none else X.memo x⟩
  /-- the action cannot be printed (its command line cannot be expanded) -/
  | fail {X : CSt V B K A} {T' n m post} :
      TM.step C X.T (.finish n (some m) post) = some T' →
      NStep M D C X (.finish n (some m) post) ⟨T', X.S, X.memo⟩
  | flush {X : CSt V B K A} {T'} : TM.step C X.T .flush = some T' → NStep M D C X .flush ⟨T', X.S, X.memo⟩
  | interrupt {X : CSt V B K A} {T'} : TM.step C X.T .interrupt = some T' → NStep M D C X .interrupt ⟨T', X.S, X.memo⟩

/-- Runs of `scons -n` (without `-i`). -/
inductive NSteps (M : Sem B K A) (D : Desc V B A) (C : TM.Cfg V) : CSt V B K A → CSt V B K A → Prop
  | refl (X) : NSteps M D C X X
  | tail {X X' X''} (l) : NSteps M D C X X' → l.noIgnore → NStep M D C X' l X'' → NSteps M D C X X''

theorem NStep.tm {M : Sem B K A} {D : Desc V B A} {C : TM.Cfg V} {X X' : CSt V B K A} {l : TM.Lab V} (h : NStep M D C X l X') :
    TM.step C X.T l = some X'.T := by cases h <;> assumption

/-! ## The invariant of dry runs -/

structure DryInv (M : Sem B K A) (D : Desc V B A) (C : TM.Cfg V) (orig : List V) (S1 : St V B K A) (X : CSt V B K A) : Prop where
  fs : X.S.fs = S1.fs
  db : X.S.db = S1.db
  disk : X.S.disk = S1.disk
  infos : InfosOK (X.S.world M) X.S.infos
  memo : ∀ n l sc, X.memo n = some l → D n = some sc → l = sc.result S1.fs
  tm : TM.Reach C (fun _ l => l.noIgnore) orig X.T
  started : ∀ v ∈ X.T.started, ∃ p ∈ C.targets v, ¬ Settled M D S1.fs S1.db p
  peers : ∀ v ∈ X.T.started, ∀ p ∈ C.targets v, p ∈ X.T.started

theorem DryInv.leaf {M : Sem B K A} {D : Desc V B A} {C : TM.Cfg V} {orig : List V} {S1 : St V B K A} {X : CSt V B K A} (h : DryInv M D C orig S1 X) {n : V}
    {sc : Scan V B A} (hsc : D n = some sc) : X.leafOf D n = some (sc.result S1.fs) := by
  unfold CSt.leafOf
  rw [hsc, Option.map_some]
  congr 1
  cases hm : X.memo n with
  | none => simp [h.fs]
  | some l => simpa using h.memo n l sc hm hsc

theorem DryInv.scanned {M : Sem B K A} {D : Desc V B A} {C : TM.Cfg V} {orig : List V} {S1 : St V B K A} {X : CSt V B K A} (h : DryInv M D C orig S1 X) (n : V)
    (scan : TM.Scan V) : ∀ m l sc, X.scanned D C n scan m = some l → D m = some sc → l = sc.result S1.fs := by
  intro m l sc hm hsc
  cases scan with
  | raised => exact h.memo m l sc hm hsc
  | ok kids =>
    simp only [CSt.scanned] at hm
    split at hm
    · simp only at hm
      split at hm
      · rw [h.leaf hsc] at hm
        exact (Option.some.inj hm).symm
      · exact h.memo m l sc hm hsc
    · exact h.memo m l sc hm hsc

/-- The check of all targets of an action, in a dry run: are they settled in the files and the stored information at the beginning? -/
theorem DryInv.check {M : Sem B K A} {D : Desc V B A} {C : TM.Cfg V} {orig : List V} {S1 : St V B K A} {X : CSt V B K A} (h : DryInv M D C orig S1 X) {n : V}
    {lf : V → Leaf V A} (hl : X.leaves D (C.targets n) lf) :
    (X.S.checkAll M lf (C.targets n)).2 = true ↔ ∀ t ∈ C.targets n, Settled M D S1.fs S1.db t := by
  rw [(checkAll_spec h.infos).2.2.2]
  refine forall₂_congr fun t ht => ?_
  have hlt := hl t ht
  cases hsc : D t with
  | none => simp [CSt.leafOf, hsc] at hlt
  | some sc =>
    rw [h.leaf hsc] at hlt
    rw [← Option.some.inj hlt, ← h.fs, ← h.db]
    exact ⟨up_to_date_settled hsc h.infos, fun hS => settled_up_to_date hsc hS h.infos⟩

/-- The fate `start` of a returned node. -/
theorem started_by {C : TM.Cfg V} {tgt : V → Prop} (hC : TM.Groups C tgt) {S S' : TM.St V} {alt pushed post : List V} {scan : TM.Scan V} {n : V}
    (hni : TM.Lab.noIgnore (.consider alt scan pushed .start post)) (hr : TM.returned C S alt scan pushed = some n)
    (hs : TM.step C S (.consider alt scan pushed .start post) = some S') :
    S'.started = C.targets n ++ S.started ∧ S'.active = n :: S.active ∧ ∀ x, S'.state x = if x ∈ C.targets n then .executing else S.state x := by
  obtain ⟨-, S1, k, hk, hcons⟩ := hC.consider hni hs
  have hkn := returned_is_candidate hr hk
  subst hkn
  cases hcons with
  | start hr' ha hst hstate hwp =>
    refine ⟨?_, ha, hstate⟩
    rcases TM.started_of_step hs with ⟨-, g⟩ | ⟨m, h1, h2, -⟩
    · exact absurd ⟨k, ha, hC.wf.self k⟩ (g k)
    · rw [ha] at h1
      simp only [List.cons.injEq, and_true] at h1
      rw [h2, h1]
  | skip _ hr' => rw [hr] at hr'; cases hr'
  | failed _ m hm => simp [TM.Fate.failure] at hm

theorem DryInv.step {M : Sem B K A} {D : Desc V B A} {C : TM.Cfg V} (hC : TM.Groups C (fun n => (D n).isSome)) {orig : List V} {S1 : St V B K A}
    {X X' : CSt V B K A} {l : TM.Lab V} (h : DryInv M D C orig S1 X) (hni : l.noIgnore) (hs : NStep M D C X l X') : DryInv M D C orig S1 X' := by
  have htm : TM.Reach C (fun _ l => l.noIgnore) orig X'.T := .tail l h.tm hni hs.tm
  cases hs with
  | @walk T' T1 alt scan pushed fate post n h1 h2 h3 h4 =>
    obtain ⟨e1, e2⟩ := TM.consider_idle (fun x _ => by rw [h4]; simp) h1
    exact ⟨h.fs, h.db, h.disk, h.infos, h.scanned n scan, htm, by simp only [e2]; exact h.started, by simp only [e2]; exact h.peers⟩
  | @source T' alt scan pushed post n h1 h2 h3 h4 =>
    obtain ⟨e1, e2⟩ := TM.consider_idle (by simp) h1
    exact ⟨h.fs, h.db, h.disk, h.infos, h.scanned n scan, htm, by simp only [e2]; exact h.started, by simp only [e2]; exact h.peers⟩
  | @current T' alt scan pushed post n lf h1 h2 h3 h4 h5 =>
    obtain ⟨e1, e2⟩ := TM.consider_idle (by simp) h1
    obtain ⟨c1, c2, c3, c4, c5, c6⟩ := checkAll_fields M lf (C.targets n) X.S
    have a1 := (checkAll_spec (lf := lf) (ts := C.targets n) h.infos).1
    exact ⟨c1.trans h.fs, c2.trans h.db, c3.trans h.disk, a1, h.scanned n scan, htm, by simp only [e2]; exact h.started,
      by simp only [e2]; exact h.peers⟩
  | @announce T' alt scan pushed post n lf h1 h2 h3 h4 h5 =>
    obtain ⟨c1, c2, c3, c4, c5, c6⟩ := checkAll_fields M lf (C.targets n) X.S
    have a1 := (checkAll_spec (lf := lf) (ts := C.targets n) h.infos).1
    obtain ⟨e1, e2, e3⟩ := started_by hC hni h3 h1
    refine ⟨c1.trans h.fs, c2.trans h.db, c3.trans h.disk, a1, h.scanned n scan, htm, ?_, ?_⟩
    · intro v hv
      simp only [e1, List.mem_append] at hv
      rcases hv with hv | hv
      · rw [hC.wf.peers n v hv]
        by_contra hcon
        simp only [not_exists, not_and, not_not] at hcon
        rw [(h.check h4).2 hcon] at h5; cases h5
      · exact h.started v hv
    · intro v hv p hp
      simp only [e1, List.mem_append] at hv ⊢
      rcases hv with hv | hv
      · rw [hC.wf.peers n v hv] at hp; exact Or.inl hp
      · exact Or.inr (h.peers v hv p hp)
  | @early T' alt scan pushed fate m post n h1 h2 h3 h4 =>
    obtain ⟨e1, e2⟩ := TM.consider_idle (by rintro x rfl; simp [TM.Fate.failure] at h3) h1
    exact ⟨h.fs, h.db, h.disk, h.infos, h.scanned n scan, htm, by simp only [e2]; exact h.started, by simp only [e2]; exact h.peers⟩
  | @finish T' n post h1 =>
    have e2 : T'.started = X.T.started := by
      rcases TM.started_of_step h1 with ⟨e, -⟩ | ⟨m, e, -⟩
      · exact e
      · rw [(hC.finish_ok h1).2.1] at e
        have h1 := congrArg List.length e
        have h2 := List.length_erase_le (a := n) (l := X.T.active)
        simp only [List.length_cons] at h1; omega
    refine ⟨h.fs, h.db, h.disk, ?_, ?_, htm, by simp only [e2]; exact h.started, by simp only [e2]; exact h.peers⟩
    · intro c k hk
      simp only [St.dryBuilt] at hk
      split at hk
      · simp only [Option.some.injEq] at hk
        rw [← hk]; rfl
      · exact h.infos c k hk
    · intro m l sc hm
      simp only at hm
      split at hm
      · cases hm
      · exact h.memo m l sc hm
  | @fail T' n m post h1 =>
    have e2 : T'.started = X.T.started := by
      rcases TM.started_of_step h1 with ⟨e, -⟩ | ⟨k, e, -⟩
      · exact e
      · rw [(hC.finish_fail (by rintro rfl; exact hni) h1).2.1] at e
        have h1 := congrArg List.length e
        have h2 := List.length_erase_le (a := n) (l := X.T.active)
        simp only [List.length_cons] at h1; omega
    exact ⟨h.fs, h.db, h.disk, h.infos, h.memo, htm, by simp only [e2]; exact h.started, by simp only [e2]; exact h.peers⟩
  | flush h1 =>
    simp only [TM.step] at h1
    split at h1
    case isFalse => cases h1
    simp only [Option.some.injEq] at h1
    subst h1
    exact ⟨h.fs, h.db, h.disk, h.infos, h.memo, htm, h.started, h.peers⟩
  | interrupt h1 =>
    simp only [TM.step, Option.some.injEq] at h1
    subst h1
    exact ⟨h.fs, h.db, h.disk, h.infos, h.memo, htm, h.started, h.peers⟩

theorem DryInv.init {M : Sem B K A} {D : Desc V B A} {C : TM.Cfg V} {orig : List V} {S S1 : St V B K A} (hb : Step M D S .begin S1) :
    DryInv M D C orig S1 (CSt.init orig S1) := by
  refine ⟨rfl, rfl, rfl, ?_, fun n l sc h => (by cases h), .refl _, fun v hv => (by simp [CSt.init, TM.St.init] at hv), fun v hv => (by simp [CSt.init, TM.St.init] at hv)⟩
  cases hb; intro c k hk; cases hk

theorem NSteps.inv {M : Sem B K A} {D : Desc V B A} {C : TM.Cfg V} (hC : TM.Groups C (fun n => (D n).isSome)) {orig : List V} {S1 : St V B K A}
    {X X' : CSt V B K A} (h : NSteps M D C X X') (h0 : DryInv M D C orig S1 X) : DryInv M D C orig S1 X' := by
  induction h with
  | refl => exact h0
  | tail l _ hni hs ih => exact ih.step hC hni hs

/-! ## What a dry run without failures has finished -/

/-- `u` needs `v`: `v` is a dependency, a requirement (`Requires()`) or a target of the same action. -/
def Needs (D : Desc V B A) (C : TM.Cfg V) (fs : Files V B) (u v : V) : Prop :=
  (∃ sc, D u = some sc ∧ v ∈ (sc.result fs).children) ∨ v ∈ C.prereqs u ∨ v ∈ C.targets u

structure DryOk (M : Sem B K A) (D : Desc V B A) (C : TM.Cfg V) (S1 : St V B K A) (X : CSt V B K A) : Prop where
  deps : ∀ v, 1 < (X.T.state v).rank → (∀ sc, D v = some sc → ∀ c ∈ (sc.result S1.fs).children, (X.T.state c).done) ∧ ∀ c ∈ C.prereqs v, (X.T.state c).done
  peers : ∀ v, 1 < (X.T.state v).rank → ∀ p ∈ C.targets v, X.T.state p = X.T.state v
  upto : ∀ v, X.T.state v = .upToDate → Settled M D S1.fs S1.db v ∧ v ∉ X.T.started
  exe : ∀ v, X.T.state v = .executing ∨ X.T.state v = .executed → v ∈ X.T.started

theorem failed_none {C : TM.Cfg V} {tgt : V → Prop} (hC : TM.Groups C tgt) {orig : List V} {T : TM.St V} (h : TM.Reach C (fun _ l => l.noIgnore) orig T)
    (hf : T.failedTasks = ∅) (v : V) : T.state v ≠ .failed := by
  intro e
  obtain ⟨f, hf1, _⟩ := (TM.Reach.inv (hC.project orig) (fun _ l _ => hC.noSELab l) h).failed v e
  rw [hf] at hf1; simp at hf1

theorem DryOk.step {M : Sem B K A} {D : Desc V B A} {C : TM.Cfg V} (hC : TM.Groups C (fun n => (D n).isSome)) {orig : List V} {S1 : St V B K A}
    {X X' : CSt V B K A} {l : TM.Lab V} (hI : DryInv M D C orig S1 X) (h : DryOk M D C S1 X) (hni : l.noIgnore) (hs : NStep M D C X l X')
    (hf : X'.T.failedTasks = ∅) : DryOk M D C S1 X' := by
  have hI' := hI.step hC hni hs
  have hnf := failed_none hC hI'.tm hf
  -- a returned node: its dependencies are finished
  have hret : ∀ {alt pushed : List V} {scan : TM.Scan V} {n : V}, X.scanOK D C n scan → TM.returned C X.T alt scan pushed = some n → ∀ t ∈ C.targets n,
      (∀ sc, D t = some sc → ∀ c ∈ (sc.result S1.fs).children, (X.T.state c).done) ∧ ∀ c ∈ C.prereqs t, (X.T.state c).done := by
    intro alt pushed scan n hok hr t ht
    obtain ⟨kids, hk, hdone⟩ := TM.C01_dependencies_finished_when_returned hr
    refine ⟨fun sc hsc c hc => hdone c (List.mem_append.2 (Or.inr ?_)), fun c hc => hdone c (List.mem_append.2 (Or.inl ?_))⟩
    · rcases hok with e | e
      · rw [e] at hk; cases hk
      · rw [e] at hk; cases hk
        exact CSt.mem_kidsOf ht (hI.leaf hsc) hc
    · rw [hC.pre n t ht] at hc; exact hc
  have hsub : ∀ {ts : List V} {n : V} {T' : TM.St V} {s : TM.NState}, ts = C.targets n → 1 < s.rank → (∀ c ∈ C.targets n, (X.T.state c).rank ≤ 1) →
      (∀ x, T'.state x = if x ∈ ts then s else X.T.state x) → ∀ c, (X.T.state c).done → (T'.state c).done := by
    intro ts n T' s e hs hr hst c hc
    subst e
    rw [hst]
    split
    · rename_i hm
      exact absurd hc (TM.NState.not_done_of_le (by have := hr c hm; omega))
    · exact hc
  cases hs with
  | @walk T' T1 alt scan pushed fate post n h1 h2 h3 h4 =>
    obtain ⟨e1, e2⟩ := TM.consider_idle (fun x _ => by rw [h4]; simp) h1
    obtain ⟨-, S2, k, hk, hcons⟩ := hC.consider hni h1
    have hst : ∀ x, T'.state x = X.T.state x ∨ (T'.state x).rank ≤ 1 ∧ (X.T.state x).rank ≤ 1 := by
      cases hcons with
      | skip _ _ hF =>
        intro x
        rcases hF.state x with e | e | ⟨rfl, e, e'⟩
        · exact Or.inl e
        · exact absurd e (hnf x)
        · exact Or.inr ⟨by rw [e]; simp [TM.NState.rank], e'⟩
      | raised m _ _ _ _ hF => exact absurd (hF.self k (hC.wf.self k)) (hnf k)
      | failed _ _ _ hr' => rw [h4] at hr'; cases hr'
      | current hr' => rw [h4] at hr'; cases hr'
      | start hr' => rw [h4] at hr'; cases hr'
    have hd : ∀ c, (X.T.state c).done → (T'.state c).done := by
      intro c hc
      rcases hst c with e | ⟨-, e⟩
      · rw [e]; exact hc
      · exact absurd hc (TM.NState.not_done_of_le (by omega))
    have hup : ∀ v, 1 < (T'.state v).rank → T'.state v = X.T.state v := by
      intro v hv
      rcases hst v with e | ⟨e, -⟩
      · exact e
      · omega
    refine ⟨fun v hv => ?_, fun v hv p hp => ?_, fun v hv => ?_, fun v hv => ?_⟩
    · simp only at hv ⊢
      have := h.deps v (by rw [← hup v hv]; exact hv)
      exact ⟨fun sc hsc c hc => hd c (this.1 sc hsc c hc), fun c hc => hd c (this.2 c hc)⟩
    · simp only at hv ⊢
      have e := hup v hv
      have := h.peers v (by rw [← e]; exact hv) p hp
      rcases hst p with e' | ⟨-, e'⟩
      · rw [e', e, this]
      · rw [this, ← e] at e'; omega
    · simp only at hv ⊢
      rw [e2]
      exact h.upto v (by rw [← hup v (by rw [hv]; simp [TM.NState.rank])]; exact hv)
    · simp only at hv ⊢
      rw [e2]
      have e := hup v (by rcases hv with hv | hv <;> rw [hv] <;> simp [TM.NState.rank])
      rw [e] at hv
      exact h.exe v hv
  | @source T' alt scan pushed post n h1 h2 h3 h4 =>
    obtain ⟨e1, e2⟩ := TM.consider_idle (by simp) h1
    obtain ⟨-, S2, k, hk, hcons⟩ := hC.consider hni h1
    have hkn := returned_is_candidate h3 hk
    subst hkn
    have hr1 := (returned_facts h3).2.1
    have htk : C.targets k = [k] := hC.src k (by simp [h4])
    cases hcons with
    | skip _ hr' => rw [h3] at hr'; cases hr'
    | failed _ m hm => simp [TM.Fate.failure] at hm
    | current hr' ha hst hstate hwp =>
      rw [htk] at hstate
      have hd := hsub (n := k) (T' := T') htk.symm (s := .upToDate) (by simp [TM.NState.rank]) (by rw [htk]; simpa using hr1) hstate
      refine ⟨fun v hv => ?_, fun v hv p hp => ?_, fun v hv => ?_, fun v hv => ?_⟩
      · by_cases hvk : v = k
        · subst hvk
          have := hret h2 h3 v (hC.wf.self v)
          exact ⟨fun sc hsc c hc => hd c (this.1 sc hsc c hc), fun c hc => hd c (this.2 c hc)⟩
        · simp only [hstate, List.mem_singleton, if_neg hvk] at hv
          have := h.deps v hv
          exact ⟨fun sc hsc c hc => hd c (this.1 sc hsc c hc), fun c hc => hd c (this.2 c hc)⟩
      · by_cases hvk : v = k
        · subst hvk; rw [htk] at hp; simp at hp; rw [hp]
        · have hpk : p ≠ k := by
            rintro rfl
            have := hC.wf.self v
            rw [← hC.wf.peers v p hp, htk] at this
            simp at this; exact hvk this
          simp only [hstate, List.mem_singleton, if_neg hvk, if_neg hpk] at hv ⊢
          exact h.peers v hv p hp
      · simp only at hv ⊢
        by_cases hvk : v = k
        · subst hvk
          refine ⟨fun sc hsc => (by rw [h4] at hsc; cases hsc), ?_⟩
          rw [e2]
          intro hmem
          have := (TM.Reach.inv (hC.project orig) (fun _ l _ => hC.noSELab l) hI.tm).started v hmem
          omega
        · rw [hstate, if_neg (by simpa using hvk)] at hv
          rw [e2]; exact h.upto v hv
      · simp only at hv ⊢
        rw [e2]
        by_cases hvk : v = k
        · subst hvk; rw [hstate] at hv; simp at hv
        · rw [hstate, if_neg (by simpa using hvk)] at hv; exact h.exe v hv
  | @current T' alt scan pushed post n lf h1 h2 h3 h4 h5 =>
    obtain ⟨e1, e2⟩ := TM.consider_idle (by simp) h1
    obtain ⟨-, S2, k, hk, hcons⟩ := hC.consider hni h1
    have hkn := returned_is_candidate h3 hk
    subst hkn
    have hr1 := (returned_facts h3).2.1
    have hrk : ∀ c ∈ C.targets k, (X.T.state c).rank ≤ 1 := by
      intro c hc
      by_contra hcon
      have hkc : k ∈ C.targets c := by rw [hC.wf.peers k c hc]; exact hC.wf.self k
      rw [h.peers c (by omega) k hkc] at hr1; omega
    have hsett := (hI.check h4).1 h5
    cases hcons with
    | skip _ hr' => rw [h3] at hr'; cases hr'
    | failed _ m hm => simp [TM.Fate.failure] at hm
    | current hr' ha hst hstate hwp =>
      have hd := hsub (n := k) (T' := T') rfl (s := .upToDate) (by simp [TM.NState.rank]) hrk hstate
      refine ⟨fun v hv => ?_, fun v hv p hp => ?_, fun v hv => ?_, fun v hv => ?_⟩
      · by_cases hvk : v ∈ C.targets k
        · have := hret h2 h3 v hvk
          exact ⟨fun sc hsc c hc => hd c (this.1 sc hsc c hc), fun c hc => hd c (this.2 c hc)⟩
        · simp only [hstate, if_neg hvk] at hv
          have := h.deps v hv
          exact ⟨fun sc hsc c hc => hd c (this.1 sc hsc c hc), fun c hc => hd c (this.2 c hc)⟩
      · by_cases hvk : v ∈ C.targets k
        · have hpk : p ∈ C.targets k := by rw [hC.wf.peers k v hvk] at hp; exact hp
          simp only [hstate, if_pos hvk, if_pos hpk]
        · have hpk : p ∉ C.targets k := fun e => hvk (by
            rw [← hC.wf.peers k p e, hC.wf.peers v p hp]; exact hC.wf.self v)
          simp only [hstate, if_neg hvk, if_neg hpk] at hv ⊢
          exact h.peers v hv p hp
      · simp only at hv ⊢
        rw [e2]
        by_cases hvk : v ∈ C.targets k
        · refine ⟨hsett v hvk, fun hmem => ?_⟩
          have := (TM.Reach.inv (hC.project orig) (fun _ l _ => hC.noSELab l) hI.tm).started v hmem
          have := hrk v hvk
          omega
        · rw [hstate, if_neg hvk] at hv; exact h.upto v hv
      · simp only at hv ⊢
        rw [e2]
        by_cases hvk : v ∈ C.targets k
        · rw [hstate, if_pos hvk] at hv; simp at hv
        · rw [hstate, if_neg hvk] at hv; exact h.exe v hv
  | @announce T' alt scan pushed post n lf h1 h2 h3 h4 h5 =>
    obtain ⟨e1, e2, hstate⟩ := started_by hC hni h3 h1
    have hr1 := (returned_facts h3).2.1
    have hrk : ∀ c ∈ C.targets n, (X.T.state c).rank ≤ 1 := by
      intro c hc
      by_contra hcon
      have hkc : n ∈ C.targets c := by rw [hC.wf.peers n c hc]; exact hC.wf.self n
      rw [h.peers c (by omega) n hkc] at hr1; omega
    have hd := hsub (n := n) (T' := T') rfl (s := .executing) (by simp [TM.NState.rank]) hrk hstate
    refine ⟨fun v hv => ?_, fun v hv p hp => ?_, fun v hv => ?_, fun v hv => ?_⟩
    · by_cases hvk : v ∈ C.targets n
      · have := hret h2 h3 v hvk
        exact ⟨fun sc hsc c hc => hd c (this.1 sc hsc c hc), fun c hc => hd c (this.2 c hc)⟩
      · simp only [hstate, if_neg hvk] at hv
        have := h.deps v hv
        exact ⟨fun sc hsc c hc => hd c (this.1 sc hsc c hc), fun c hc => hd c (this.2 c hc)⟩
    · by_cases hvk : v ∈ C.targets n
      · have hpk : p ∈ C.targets n := by rw [hC.wf.peers n v hvk] at hp; exact hp
        simp only [hstate, if_pos hvk, if_pos hpk]
      · have hpk : p ∉ C.targets n := fun e => hvk (by
          rw [← hC.wf.peers n p e, hC.wf.peers v p hp]; exact hC.wf.self v)
        simp only [hstate, if_neg hvk, if_neg hpk] at hv ⊢
        exact h.peers v hv p hp
    · simp only at hv ⊢
      by_cases hvk : v ∈ C.targets n
      · rw [hstate, if_pos hvk] at hv; simp at hv
      · rw [hstate, if_neg hvk] at hv
        rw [e1]
        exact ⟨(h.upto v hv).1, fun hm => (List.mem_append.1 hm).elim hvk (h.upto v hv).2⟩
    · simp only at hv ⊢
      rw [e1, List.mem_append]
      by_cases hvk : v ∈ C.targets n
      · exact Or.inl hvk
      · rw [hstate, if_neg hvk] at hv; exact Or.inr (h.exe v hv)
  | @early T' alt scan pushed fate m post n h1 h2 h3 h4 =>
    obtain ⟨-, S2, k, hk, hcons⟩ := hC.consider hni h1
    have hkn := returned_is_candidate h4 hk
    subst hkn
    exfalso
    cases hcons with
    | skip _ hr' => rw [h4] at hr'; cases hr'
    | raised m hr' => rw [h4] at hr'; cases hr'
    | failed _ m hm hr' ha hF => exact hnf k (hF.self k (hC.wf.self k))
    | current => simp [TM.Fate.failure] at h3
    | start => simp [TM.Fate.failure] at h3
  | @finish T' n post h1 =>
    obtain ⟨g1, g2, g3, hstate, -⟩ := hC.finish_ok h1
    have e2 : T'.started = X.T.started := by
      rcases TM.started_of_step h1 with ⟨e, -⟩ | ⟨m, e, -⟩
      · exact e
      · rw [g2] at e
        have h1 := congrArg List.length e
        have h2 := List.length_erase_le (a := n) (l := X.T.active)
        simp only [List.length_cons] at h1; omega
    have hd : ∀ c, (X.T.state c).done → (T'.state c).done := by
      intro c hc; rw [hstate]; split
      · trivial
      · exact hc
    have hrank : ∀ v, 1 < (T'.state v).rank → 1 < (X.T.state v).rank := by
      intro v hv; rw [hstate] at hv; split at hv
      · rename_i e; rw [e.2]; simp [TM.NState.rank]
      · exact hv
    refine ⟨fun v hv => ?_, fun v hv p hp => ?_, fun v hv => ?_, fun v hv => ?_⟩
    · have := h.deps v (hrank v hv)
      exact ⟨fun sc hsc c hc => hd c (this.1 sc hsc c hc), fun c hc => hd c (this.2 c hc)⟩
    · have := h.peers v (hrank v hv) p hp
      have hiff : p ∈ C.targets n ↔ v ∈ C.targets n := by
        constructor
        · intro e; rw [← hC.wf.peers n p e, hC.wf.peers v p hp]; exact hC.wf.self v
        · intro e; rw [hC.wf.peers n v e] at hp; exact hp
      simp only [hstate, this, hiff]
    · simp only at hv ⊢
      rw [e2]
      rw [hstate] at hv
      split at hv
      · cases hv
      · exact h.upto v hv
    · simp only at hv ⊢
      rw [e2]
      rw [hstate] at hv
      split at hv
      · rename_i e; exact h.exe v (Or.inl e.2)
      · exact h.exe v hv
  | @fail T' n m post h1 =>
    exact absurd ((hC.finish_fail (by rintro rfl; exact hni) h1).2.2.2.self n (hC.wf.self n)) (hnf n)
  | flush h1 =>
    simp only [TM.step] at h1
    split at h1
    case isFalse => cases h1
    simp only [Option.some.injEq] at h1
    subst h1
    exact ⟨h.deps, h.peers, h.upto, h.exe⟩
  | interrupt h1 =>
    simp only [TM.step, Option.some.injEq] at h1
    subst h1
    exact ⟨h.deps, h.peers, h.upto, h.exe⟩

theorem NSteps.ok {M : Sem B K A} {D : Desc V B A} {C : TM.Cfg V} (hC : TM.Groups C (fun n => (D n).isSome)) {orig : List V} {S S1 : St V B K A}
    (hb : Step M D S .begin S1) {X : CSt V B K A} (h : NSteps M D C (CSt.init orig S1) X) (hf : X.T.failedTasks = ∅) : DryOk M D C S1 X := by
  generalize hX : CSt.init orig S1 = X0 at h
  induction h with
  | refl =>
    subst hX
    refine ⟨?_, ?_, ?_, ?_⟩ <;> intro v hv <;> simp [CSt.init, TM.St.init, TM.NState.rank] at hv
  | tail l h' hni hs ih =>
    subst hX
    exact DryOk.step hC (h'.inv hC (DryInv.init hb)) (ih (Finset.subset_empty.1 fun f hff => hf ▸ TM.failedTasks_mono hs.tm hff)) hni hs hf

theorem finishAll_db_other {M : Sem B K A} {ex : V → Bool} {rs : V → Run V B A} {views : V → V → Option B} {ts : List V} {S : St V B K A} {x : V} (hx : x ∉ ts) :
    (S.finishAll M ex rs views ts).db x = S.db x := by
  induction ts generalizing S with
  | nil => rfl
  | cons t ts ih =>
    simp only [List.mem_cons, not_or] at hx
    show (St.finishAll M ex rs views ts _).db x = _
    rw [ih hx.2]
    dsimp only
    split
    · simp [St.effFinish, hx.1]
    · rfl

/-! ## Real runs and a set of nodes that is up to date -/

/-- A set of up-to-date nodes that contains everything its members need. -/
structure Calmed (M : Sem B K A) (D : Desc V B A) (C : TM.Cfg V) (S1 : St V B K A) (Q : V → Prop) : Prop where
  closed : ∀ v, Q v → Closed D S1.fs Q v
  peers : ∀ v, Q v → ∀ p ∈ C.targets v, Q p
  settled : ∀ v, Q v → Settled M D S1.fs S1.db v

/-- In a real run begun in `S1`, the nodes of `Q` stay as they are. -/
structure Kept (D : Desc V B A) (S1 : St V B K A) (Q : V → Prop) (X : CSt V B K A) : Prop where
  fs : ∀ v, Q v → X.S.fs v = S1.fs v
  started : ∀ v, Q v → v ∉ X.T.started
  running : ∀ v, Q v → ¬ (X.S.running v).isSome
  db : ∀ v, Q v → ¬ X.S.done v → X.S.db v = S1.db v

/-- The cached scan results of `R` are those of the files at the beginning. -/
def MemoKept (D : Desc V B A) (S1 : St V B K A) (R : V → Prop) (X : CSt V B K A) : Prop :=
  ∀ v, R v → ∀ l sc, X.memo v = some l → D v = some sc → l = sc.result S1.fs

theorem kept_result {D : Desc V B A} (hD : WF D) {S1 : St V B K A} {Q : V → Prop} {X : CSt V B K A} (h : ∀ v, Q v → X.S.fs v = S1.fs v) {v : V}
    (hc : Closed D S1.fs Q v) {sc : Scan V B A} (hsc : D v = some sc) : sc.result X.S.fs = sc.result S1.fs :=
  ((result_eq fun d h1 _ => (h d (hc sc hsc d ((hD v sc hsc S1.fs).1 d h1))).symm).1).symm

theorem kept_leaf {D : Desc V B A} (hD : WF D) {S1 : St V B K A} {Q R : V → Prop} {X : CSt V B K A} (h : ∀ v, Q v → X.S.fs v = S1.fs v) (hm : MemoKept D S1 R X) {v : V}
    (hR : R v) (hc : Closed D S1.fs Q v) {sc : Scan V B A} (hsc : D v = some sc) : X.leafOf D v = some (sc.result S1.fs) := by
  unfold CSt.leafOf
  rw [hsc, Option.map_some]
  congr 1
  cases hmv : X.memo v with
  | none => simpa using kept_result hD h hc hsc
  | some l => simpa using hm v hR l sc hmv hsc

theorem MemoKept.step {M : Sem B K A} {D : Desc V B A} (hD : WF D) {C : TM.Cfg V} {S1 : St V B K A} {Q R : V → Prop} {X X' : CSt V B K A} {l : TM.Lab V}
    (h : ∀ v, Q v → X.S.fs v = S1.fs v) (hm : MemoKept D S1 R X) (hR : ∀ v, R v → Closed D S1.fs Q v) (hs : CStep M D C X l X') : MemoKept D S1 R X' := by
  have hscan : ∀ n scan, ∀ v, R v → ∀ l sc, X.scanned D C n scan v = some l → D v = some sc → l = sc.result S1.fs := by
    intro n scan v hv l sc hl hsc
    cases scan with
    | raised => exact hm v hv l sc hl hsc
    | ok kids =>
      simp only [CSt.scanned] at hl
      split at hl
      · simp only at hl
        split at hl
        · rw [kept_leaf hD h hm hv (hR v hv) hsc] at hl
          exact (Option.some.inj hl).symm
        · exact hm v hv l sc hl hsc
      · exact hm v hv l sc hl hsc
  cases hs with
  | walk h1 h2 h3 h4 => exact hscan _ _
  | source h1 h2 h3 h4 => exact hscan _ _
  | current h1 h2 h3 h4 h5 => exact hscan _ _
  | start h1 h2 h3 h4 h5 => exact hscan _ _
  | early h1 h2 h3 h4 => exact hscan _ _
  | removed h1 h2 h3 h4 h5 h6 => exact hscan _ _
  | finish h1 h2 =>
    intro v hv l sc hl hsc
    simp only at hl
    split at hl
    · cases hl
    · exact hm v hv l sc hl hsc
  | fail h1 => exact hm
  | flush h1 => exact hm
  | interrupt h1 => exact hm

theorem J.infosOK {M : Sem B K A} (hM : M.Faithful) {D : Desc V B A} {C : TM.Cfg V} {orig : List V} {X : CSt V B K A} (h : J M D C orig X) :
    InfosOK (X.S.world M) X.S.infos := by
  obtain ⟨src, hR⟩ := reach_inRun hM h.reach h.busy
  exact fun c k hk => hR.infos c k hk

/-- A step other than `start` starts nothing. -/
theorem started_same {C : TM.Cfg V} {S S' : TM.St V} {l : TM.Lab V} (hs : TM.step C S l = some S') (hl : ∀ n, S'.active ≠ n :: S.active) :
    S'.started = S.started := by
  rcases TM.started_of_step hs with ⟨e, -⟩ | ⟨m, e, -⟩
  · exact e
  · exact absurd e (hl m)

theorem erase_ne_cons {l : List V} {n : V} (m : V) : l.erase n ≠ m :: l := by
  intro e
  have h1 := congrArg List.length e
  have h2 := List.length_erase_le (a := n) (l := l)
  simp only [List.length_cons] at h1; omega

/-- A target of `Q` that is returned, is up to date. -/
theorem Kept.upToDate {M : Sem B K A} (hM : M.Faithful) {D : Desc V B A} (hD : WF D) {C : TM.Cfg V} (hC : TM.Groups C (fun n => (D n).isSome)) {orig : List V} {S1 : St V B K A}
    {Q : V → Prop} {X : CSt V B K A} (hQ : Calmed M D C S1 Q) (hJ : J M D C orig X) (h : Kept D S1 Q X) (hm : MemoKept D S1 Q X) {n : V} {alt pushed : List V}
    {scan : TM.Scan V} (hr : TM.returned C X.T alt scan pushed = some n) (hn : Q n) {lf : V → Leaf V A} (hl : X.leaves D (C.targets n) lf) :
    (X.S.checkAll M lf (C.targets n)).2 = true := by
  rw [(checkAll_spec (hJ.infosOK hM)).2.2.2]
  intro t ht
  have htQ := hQ.peers n hn t ht
  have hlt := hl t ht
  cases hsc : D t with
  | none => simp [CSt.leafOf, hsc] at hlt
  | some sc =>
    rw [kept_leaf hD h.fs hm htQ (hQ.closed t htQ) hsc] at hlt
    rw [← Option.some.inj hlt, ← kept_result hD h.fs (hQ.closed t htQ) hsc]
    have hdb := h.db t htQ (hJ.returned hC hr ht).1
    exact settled_up_to_date hsc (settled_frame hD h.fs hdb htQ (hQ.closed t htQ) (hQ.settled t htQ)).2 (hJ.infosOK hM)

theorem Kept.step {M : Sem B K A} (hM : M.Faithful) {D : Desc V B A} (hD : WF D) {C : TM.Cfg V} (hC : TM.Groups C (fun n => (D n).isSome)) {orig : List V}
    {S1 : St V B K A} {Q : V → Prop} {X X' : CSt V B K A} {l : TM.Lab V} (hQ : Calmed M D C S1 Q) (hJ : J M D C orig X) (h : Kept D S1 Q X)
    (hm : MemoKept D S1 Q X) (hni : l.noIgnore) (hs : CStep M D C X l X') : Kept D S1 Q X' := by
  have hout : ∀ {n v : V}, ¬ Q n → Q v → v ∉ C.targets n := fun {n v} hn hv e => hn (hQ.peers v hv n (by rw [hC.wf.peers n v e]; exact hC.wf.self n))
  have hrunout : ∀ {n : V}, n ∈ X.T.active → ¬ Q n := fun {n} hn hq => h.running n hq ((hJ.run n).2 ⟨n, hn, hC.wf.self n⟩)
  cases hs with
  | @walk T' T1 alt scan pushed fate post n h1 h2 h3 h4 =>
    obtain ⟨e1, e2⟩ := TM.consider_idle (fun x _ => by rw [h4]; simp) h1
    exact ⟨h.fs, by simp only [e2]; exact h.started, h.running, h.db⟩
  | @source T' alt scan pushed post n h1 h2 h3 h4 =>
    obtain ⟨e1, e2⟩ := TM.consider_idle (by simp) h1
    exact ⟨h.fs, by simp only [e2]; exact h.started, h.running, fun v hv hd => h.db v hv fun e => hd (Or.inr e)⟩
  | @current T' alt scan pushed post n lf h1 h2 h3 h4 h5 =>
    obtain ⟨e1, e2⟩ := TM.consider_idle (by simp) h1
    obtain ⟨c1, c2, c3, c4, c5, c6⟩ := checkAll_fields M lf (C.targets n) X.S
    obtain ⟨d1, d2, d3, d4, d5, d6, d7⟩ := currentAll_fields M lf (C.targets n) (X.S.checkAll M lf (C.targets n)).1
    refine ⟨fun v hv => ?_, by simp only [e2]; exact h.started, fun v hv => ?_, fun v hv hd => ?_⟩
    · simp only [d1, c1]; exact h.fs v hv
    · simp only [d5, c5]; exact h.running v hv
    · simp only [d4, c4, not_or] at hd
      simp only [d7 v hd.1, c2]
      exact h.db v hv hd.2
  | @start T' alt scan pushed post n lf h1 h2 h3 h4 h5 =>
    have hn : ¬ Q n := fun hn => by rw [h.upToDate hM hD hC hQ hJ hm h3 hn h4] at h5; cases h5
    obtain ⟨e1, -, -⟩ := started_by hC hni h3 h1
    obtain ⟨c1, c2, c3, c4, c5, c6⟩ := checkAll_fields M lf (C.targets n) X.S
    obtain ⟨d1, d2, d3, d4, d5, d6⟩ := startAll_fields lf (C.targets n) (X.S.checkAll M lf (C.targets n)).1
    refine ⟨fun v hv => ?_, fun v hv => ?_, fun v hv => ?_, fun v hv hd => ?_⟩
    · simp only [d1, if_neg (hout hn hv), c1]; exact h.fs v hv
    · simp only [e1, List.mem_append, not_or]; exact ⟨hout hn hv, h.started v hv⟩
    · simp only [d5, c5, not_or]; exact ⟨hout hn hv, h.running v hv⟩
    · simp only [d4, c4] at hd
      simp only [d2, c2]; exact h.db v hv hd
  | @early T' alt scan pushed fate m post n h1 h2 h3 h4 =>
    obtain ⟨e1, e2⟩ := TM.consider_idle (by rintro x rfl; simp [TM.Fate.failure] at h3) h1
    exact ⟨h.fs, by simp only [e2]; exact h.started, h.running, h.db⟩
  | @removed T' alt scan pushed m post n lf gone h1 h2 h3 h4 h5 h6 =>
    have hn : ¬ Q n := fun hn => by rw [h.upToDate hM hD hC hQ hJ hm h3 hn h4] at h5; cases h5
    obtain ⟨e1, e2⟩ := TM.consider_idle (by simp) h1
    obtain ⟨c1, c2, c3, c4, c5, c6⟩ := checkAll_fields M lf (C.targets n) X.S
    obtain ⟨d1, d2, d3, d4, d5, d6⟩ := startAll_fields lf gone (X.S.checkAll M lf (C.targets n)).1
    obtain ⟨g1, g2, g3, g4, g5, g6, g7⟩ := failAll_fields (fun _ => none) gone ((X.S.checkAll M lf (C.targets n)).1.startAll lf gone)
    have hgone : ∀ v, Q v → v ∉ gone := fun v hv e => hout hn hv (h6.subset e)
    refine ⟨fun v hv => ?_, by simp only [e2]; exact h.started, fun v hv => ?_, fun v hv hd => ?_⟩
    · simp only [g1, if_neg (hgone v hv), d1, c1]; exact h.fs v hv
    · simp only [g5, d5, c5, not_and, not_or]; exact fun _ => ⟨hgone v hv, h.running v hv⟩
    · simp only [g4, d4, c4] at hd
      simp only [g2, d2, c2]; exact h.db v hv hd
  | @finish T' n post rs views h1 h2 =>
    obtain ⟨g1, g2, -⟩ := hC.finish_ok h1
    have hn := hrunout g1
    have e2 := started_same h1 (by rw [g2]; exact fun m => erase_ne_cons m)
    obtain ⟨f1, f2, f3, f4, f5⟩ := finishAll_fields M (fun t => decide (X.T.state t = .executing)) rs views (C.targets n) X.S
    refine ⟨fun v hv => ?_, by simp only [e2]; exact h.started, fun v hv => ?_, fun v hv hd => ?_⟩
    · simp only [f1, if_neg (hout hn hv)]; exact h.fs v hv
    · simp only [f4, not_and]; exact fun _ => h.running v hv
    · simp only [f3, not_or] at hd
      simp only
      rw [finishAll_db_other (hout hn hv)]
      exact h.db v hv hd.2
  | @fail T' n m post left h1 =>
    obtain ⟨g1, g2, -⟩ := hC.finish_fail (by rintro rfl; exact hni) h1
    have hn := hrunout g1
    have e2 := started_same h1 (by rw [g2]; exact fun m => erase_ne_cons m)
    obtain ⟨f1, f2, f3, f4, f5, f6, f7⟩ := failAll_fields left (C.targets n) X.S
    refine ⟨fun v hv => ?_, by simp only [e2]; exact h.started, fun v hv => ?_, fun v hv hd => ?_⟩
    · simp only [f1, if_neg (hout hn hv)]; exact h.fs v hv
    · simp only [f5, not_and]; exact fun _ => h.running v hv
    · simp only [f4] at hd
      simp only [f2]; exact h.db v hv hd
  | flush h1 =>
    simp only [TM.step] at h1
    split at h1
    case isFalse => cases h1
    simp only [Option.some.injEq] at h1
    subst h1
    exact ⟨h.fs, h.started, h.running, h.db⟩
  | interrupt h1 =>
    simp only [TM.step, Option.some.injEq] at h1
    subst h1
    exact ⟨h.fs, h.started, h.running, h.db⟩

/-- In any real run begun in `S1`, the nodes of a settled set are not rebuilt. -/
theorem CSteps.kept {M : Sem B K A} (hM : M.Faithful) {D : Desc V B A} (hD : WF D) {C : TM.Cfg V} (hC : TM.Groups C (fun n => (D n).isSome)) {orig : List V}
    {S S1 : St V B K A} {Q : V → Prop} (hr : Reach M WF Legal D S) (hb : Step M D S .begin S1) (hQ : Calmed M D C S1 Q) {Y : CSt V B K A}
    (h : CSteps M D C (Tidy C) (CSt.init orig S1) Y) : J M D C orig Y ∧ Kept D S1 Q Y ∧ ∀ R, (∀ v, R v → Closed D S1.fs Q v) → MemoKept D S1 R Y := by
  generalize hX : CSt.init orig S1 = X0 at h
  induction h with
  | refl =>
    subst hX
    refine ⟨J.init ⟨_, hr, hb⟩, ⟨fun v hv => rfl, fun v hv => (by simp [CSt.init, TM.St.init]), fun v hv => ?_, fun v hv _ => rfl⟩, fun R _ v _ l sc hl => (by cases hl)⟩
    cases hb; simp [CSt.init]
  | tail l h' hP hs ih =>
    obtain ⟨i1, i2, i3⟩ := ih
    exact ⟨i1.step hM hD hC hP hs, i2.step hM hD hC hQ i1 (i3 Q hQ.closed) hP.1 hs, fun R hR => MemoKept.step hD i2.fs (i3 R hR) hR hs⟩
  | scribble t b _ hrun ih =>
    obtain ⟨i1, i2, i3⟩ := ih
    refine ⟨i1.scribble hM hD hC hrun, ⟨fun v hv => ?_, i2.started, fun v hv => ?_, i2.db⟩, i3⟩
    · have : v ≠ t := by rintro rfl; exact i2.running v hv hrun
      simp only [St.write, if_neg this]; exact i2.fs v hv
    · rw [write_running]; exact i2.running v hv

/-- Without failures every run is tidy. -/
theorem CSteps.tidy {M : Sem B K A} (hM : M.Faithful) {D : Desc V B A} (hD : WF D) {C : TM.Cfg V} (hC : TM.Groups C (fun n => (D n).isSome)) {orig : List V}
    {X X' : CSt V B K A} (h : CSteps M D C NoIgnore X X') (hf : X'.T.failedTasks = ∅) (h0 : J M D C orig X) : CSteps M D C (Tidy C) X X' := by
  induction h with
  | refl => exact .refl _
  | @tail X1 X2 l h1 hP hs ih =>
    have hf1 : X1.T.failedTasks = ∅ := Finset.subset_empty.1 fun f hff => hf ▸ TM.failedTasks_mono hs.tm hff
    exact .tail l (ih hf1) (tidy_of_no_failure hC (h1.j_of_no_failure hM hD hC hf1 h0) hP hs hf) hs
  | scribble t b _ hr ih => exact .scribble t b (ih hf) hr

/-- An action that has not been started leaves its targets as they were at the beginning. -/
def Untouched (S1 : St V B K A) (G : List V) (X : CSt V B K A) : Prop :=
  (∃ p ∈ G, p ∈ X.T.started) ∨ ∀ p ∈ G, X.S.fs p = S1.fs p ∧ ¬ X.S.done p ∧ X.S.db p = S1.db p ∧ ¬ (X.S.running p).isSome

theorem Untouched.step {M : Sem B K A} (hM : M.Faithful) {D : Desc V B A} (hD : WF D) {C : TM.Cfg V} (hC : TM.Groups C (fun n => (D n).isSome)) {orig : List V}
    {S1 : St V B K A} {Q : V → Prop} {X X' : CSt V B K A} {l : TM.Lab V} {t : V} (hJ : J M D C orig X) (hk : Kept D S1 Q X)
    (hcl : ∀ p ∈ C.targets t, Closed D S1.fs Q p) (hm : MemoKept D S1 (· ∈ C.targets t) X) (hns : ∃ p ∈ C.targets t, ¬ Settled M D S1.fs S1.db p)
    (h : Untouched S1 (C.targets t) X) (hni : l.noIgnore) (hs : CStep M D C X l X') (hf : X'.T.failedTasks = ∅) : Untouched S1 (C.targets t) X' := by
  rcases h with ⟨p, hp, hps⟩ | h
  · exact Or.inl ⟨p, hp, by
      rcases TM.started_of_step hs.tm with ⟨e, -⟩ | ⟨m, -, e, -⟩
      · rw [e]; exact hps
      · rw [e]; exact List.mem_append.2 (Or.inr hps)⟩
  have hout : ∀ {n v : V}, n ∉ C.targets t → v ∈ C.targets t → v ∉ C.targets n := fun {n v} hn hv e => hn (by
    rw [← hC.wf.peers t v hv, hC.wf.peers n v e]; exact hC.wf.self n)
  have hact : ∀ {n : V}, n ∈ X.T.active → n ∉ C.targets t := fun {n} hn hm => (h n hm).2.2.2 ((hJ.run n).2 ⟨n, hn, hC.wf.self n⟩)
  have htgt : ∀ p ∈ C.targets t, (D p).isSome = true := by
    obtain ⟨p, hp, hnp⟩ := hns
    have hDp : (D p).isSome = true := by
      cases e : D p with
      | some => rfl
      | none => exact absurd (fun sc hsc => (by rw [e] at hsc; cases hsc)) hnp
    intro q hq
    exact hC.all p hDp q (by rw [hC.wf.peers t p hp]; exact hq)
  cases hs with
  | walk h1 h2 h3 h4 => exact Or.inr h
  | @source T' alt scan pushed post n h1 h2 h3 h4 =>
    refine Or.inr fun p hp => ?_
    obtain ⟨a, b, c, d⟩ := h p hp
    refine ⟨a, ?_, c, d⟩
    rintro (rfl | e)
    · have := htgt p hp; rw [h4] at this; cases this
    · exact b e
  | @current T' alt scan pushed post n lf h1 h2 h3 h4 h5 =>
    obtain ⟨c1, c2, c3, c4, c5, c6⟩ := checkAll_fields M lf (C.targets n) X.S
    obtain ⟨d1, d2, d3, d4, d5, d6, d7⟩ := currentAll_fields M lf (C.targets n) (X.S.checkAll M lf (C.targets n)).1
    by_cases hn : n ∈ C.targets t
    · exfalso
      obtain ⟨p, hp, hnp⟩ := hns
      apply hnp
      have hpn : p ∈ C.targets n := by rw [hC.wf.peers t n hn]; exact hp
      have hcur := (checkAll_spec (hJ.infosOK hM)).2.2.2.1 h5 p hpn
      have hlt := h4 p hpn
      cases hsc : D p with
      | none => simp [CSt.leafOf, hsc] at hlt
      | some sc =>
        rw [kept_leaf hD hk.fs hm hp (hcl p hp) hsc] at hlt
        rw [← Option.some.inj hlt, ← kept_result hD hk.fs (hcl p hp) hsc] at hcur
        have hS := up_to_date_settled hsc (hJ.infosOK hM) hcur
        obtain ⟨a, b, c, d⟩ := h p hp
        intro sc' hsc'
        rw [hsc] at hsc'; cases hsc'
        obtain ⟨s1, s2, s3⟩ := hS sc hsc
        rw [kept_result hD hk.fs (hcl p hp) hsc] at s2 s3
        rw [c] at s2 s3
        rw [a] at s1
        refine ⟨s1, s2, s3.trans (List.map_congr_left fun x hx => ?_)⟩
        rw [hk.fs x (hcl p hp sc hsc x hx)]
    · refine Or.inr fun p hp => ?_
      obtain ⟨a, b, c, d⟩ := h p hp
      have hpn := hout hn hp
      simp only [d1, c1, d4, c4, d5, c5, d7 p hpn, c2]
      exact ⟨a, fun e => e.elim hpn b, c, d⟩
  | @start T' alt scan pushed post n lf h1 h2 h3 h4 h5 =>
    obtain ⟨e1, -, -⟩ := started_by hC hni h3 h1
    by_cases hn : n ∈ C.targets t
    · exact Or.inl ⟨n, hn, by simp only [e1]; exact List.mem_append.2 (Or.inl (hC.wf.self n))⟩
    · obtain ⟨c1, c2, c3, c4, c5, c6⟩ := checkAll_fields M lf (C.targets n) X.S
      obtain ⟨d1, d2, d3, d4, d5, d6⟩ := startAll_fields lf (C.targets n) (X.S.checkAll M lf (C.targets n)).1
      refine Or.inr fun p hp => ?_
      obtain ⟨a, b, c, d⟩ := h p hp
      have hpn := hout hn hp
      simp only [d1, if_neg hpn, c1, d4, c4, d2, c2, d5, c5]
      exact ⟨a, b, c, fun e => e.elim hpn d⟩
  | early h1 h2 h3 h4 => exact Or.inr h
  | removed h1 h2 h3 h4 h5 h6 => exact absurd hf (returned_failure (hC.wf.self _) h3 h1)
  | @finish T' n post rs views h1 h2 =>
    have hn := hact (hC.finish_ok h1).1
    obtain ⟨f1, f2, f3, f4, f5⟩ := finishAll_fields M (fun t => decide (X.T.state t = .executing)) rs views (C.targets n) X.S
    refine Or.inr fun p hp => ?_
    obtain ⟨a, b, c, d⟩ := h p hp
    have hpn := hout hn hp
    simp only [f1, if_neg hpn, f3, f4, finishAll_db_other hpn]
    exact ⟨a, fun e => e.elim (fun e => hpn e.1) b, c, fun e => d e.2⟩
  | @fail T' n m post left h1 =>
    have hn := hact (hC.finish_fail (by rintro rfl; exact hni) h1).1
    obtain ⟨f1, f2, f3, f4, f5, f6, f7⟩ := failAll_fields left (C.targets n) X.S
    refine Or.inr fun p hp => ?_
    obtain ⟨a, b, c, d⟩ := h p hp
    have hpn := hout hn hp
    simp only [f1, if_neg hpn, f4, f2, f5]
    exact ⟨a, b, c, fun e => d e.2⟩
  | flush h1 => exact Or.inr h
  | interrupt h1 => exact Or.inr h

theorem CSteps.untouched {M : Sem B K A} (hM : M.Faithful) {D : Desc V B A} (hD : WF D) {C : TM.Cfg V} (hC : TM.Groups C (fun n => (D n).isSome)) {orig : List V}
    {S S1 : St V B K A} {Q : V → Prop} (hr : Reach M WF Legal D S) (hb : Step M D S .begin S1) (hQ : Calmed M D C S1 Q) {Y : CSt V B K A} {t : V}
    (hcl : ∀ p ∈ C.targets t, Closed D S1.fs Q p) (hns : ∃ p ∈ C.targets t, ¬ Settled M D S1.fs S1.db p)
    (h : CSteps M D C NoIgnore (CSt.init orig S1) Y) (hf : Y.T.failedTasks = ∅) : Untouched S1 (C.targets t) Y := by
  have h0 : J M D C orig (CSt.init orig S1) := J.init ⟨_, hr, hb⟩
  generalize hX : CSt.init orig S1 = X0 at h h0
  induction h with
  | refl =>
    subst hX
    refine Or.inr fun p hp => ⟨rfl, ?_, rfl, ?_⟩
    · cases hb; simp [CSt.init]
    · cases hb; simp [CSt.init]
  | @tail X1 X2 l h1 hP hs ih =>
    have hf1 : X1.T.failedTasks = ∅ := Finset.subset_empty.1 fun f hff => hf ▸ TM.failedTasks_mono hs.tm hff
    have ht := h1.tidy hM hD hC hf1 h0
    rw [← hX] at ht
    obtain ⟨i1, i2, i3⟩ := ht.kept hM hD hC hr hb hQ
    exact Untouched.step hM hD hC i1 i2 hcl (i3 _ (fun v hv => hcl v hv)) hns (ih hf1) hP hs hf
  | scribble x b h1 hrun ih =>
    rcases ih hf with e | e
    · exact Or.inl e
    · refine Or.inr fun p hp => ?_
      obtain ⟨a, b', c, d⟩ := e p hp
      have : p ≠ x := by rintro rfl; exact d hrun
      refine ⟨?_, b', c, ?_⟩
      · simp only [St.write, if_neg this]; exact a
      · rw [write_running]; exact d

/-! ## C63 -/

/-- What a dry run has finished without announcing it or anything it needs, is settled. -/
theorem DryOk.calmed {M : Sem B K A} {D : Desc V B A} {C : TM.Cfg V} {orig : List V} {S1 : St V B K A} {X : CSt V B K A} (hI : DryInv M D C orig S1 X)
    (h : DryOk M D C S1 X) :
    Calmed M D C S1 fun v => (X.T.state v).done ∧ ∀ u, Relation.ReflTransGen (Needs D C S1.fs) v u → u ∉ X.T.started := by
  have hrank : ∀ v, (X.T.state v).done → 1 < (X.T.state v).rank := fun v hv => by
    cases e : X.T.state v <;> simp_all [TM.NState.done, TM.NState.rank]
  refine ⟨fun v ⟨hv, hn⟩ sc hsc c hc => ⟨(h.deps v (hrank v hv)).1 sc hsc c hc, fun u hu => hn u (.head (Or.inl ⟨sc, hsc, hc⟩) hu)⟩,
    fun v ⟨hv, hn⟩ p hp => ⟨by rw [h.peers v (hrank v hv) p hp]; exact hv, fun u hu => hn u (.head (Or.inr (Or.inr hp)) hu)⟩, fun v ⟨hv, hn⟩ => ?_⟩
  cases e : X.T.state v with
  | upToDate => exact (h.upto v e).1
  | executed => exact absurd (h.exe v (Or.inr e)) (hn v .refl)
  | executing => exact absurd (h.exe v (Or.inl e)) (hn v .refl)
  | noState => rw [e] at hv; exact hv.elim
  | pending => rw [e] at hv; exact hv.elim
  | failed => rw [e] at hv; exact hv.elim

/-- **C63, `scons -n` changes nothing**: no file, and no stored build information in memory or on disk — whatever happens in the run. -/
theorem C63_dry_run_changes_nothing {M : Sem B K A} {D : Desc V B A} {C : TM.Cfg V} (hC : TM.Groups C (fun n => (D n).isSome)) {orig : List V}
    {S S1 : St V B K A} (hb : Step M D S .begin S1) {X : CSt V B K A} (h : NSteps M D C (CSt.init orig S1) X) :
    X.S.fs = S.fs ∧ X.S.disk = S.disk ∧ X.S.db = S.disk := by
  have hI := h.inv hC (DryInv.init hb)
  cases hb
  exact ⟨hI.fs, hI.disk, hI.db⟩

/-- **C63, what is announced.**  In a dry run (without failures) a node that the walk has finished was announced exactly if a target of its action does not agree with the
stored information: it does not exist, the action has another signature, or the dependencies or the contents of their *present* files are not the recorded ones.  -/
theorem C63_announced_iff_out_of_date {M : Sem B K A} {D : Desc V B A} {C : TM.Cfg V} (hC : TM.Groups C (fun n => (D n).isSome)) {orig : List V}
    {S S1 : St V B K A} (hb : Step M D S .begin S1) {X : CSt V B K A} (h : NSteps M D C (CSt.init orig S1) X) (hf : X.T.failedTasks = ∅) {v : V}
    (hv : (X.T.state v).done) : v ∈ X.T.started ↔ ∃ p ∈ C.targets v, ¬ Settled M D S.fs S.disk p := by
  have hI := h.inv hC (DryInv.init hb)
  have hO := h.ok hC hb hf
  have h1 : S1.fs = S.fs := by cases hb; rfl
  have h2 : S1.db = S.disk := by cases hb; rfl
  rw [← h1, ← h2]
  refine ⟨hI.started v, fun ⟨p, hp, hnp⟩ => ?_⟩
  have hrank : 1 < (X.T.state v).rank := by cases e : X.T.state v <;> simp_all [TM.NState.done, TM.NState.rank]
  have hpv := hO.peers v hrank p hp
  cases e : X.T.state v with
  | upToDate => exact absurd (hO.upto p (hpv.trans e)).1 hnp
  | executed => exact hO.exe v (Or.inr e)
  | executing => exact hO.exe v (Or.inl e)
  | noState => rw [e] at hv; exact hv.elim
  | pending => rw [e] at hv; exact hv.elim
  | failed => rw [e] at hv; exact hv.elim

/-- **C63, nothing is announced without reason**, also in a dry run with failures. -/
theorem C63_announced_is_out_of_date {M : Sem B K A} {D : Desc V B A} {C : TM.Cfg V} (hC : TM.Groups C (fun n => (D n).isSome)) {orig : List V}
    {S S1 : St V B K A} (hb : Step M D S .begin S1) {X : CSt V B K A} (h : NSteps M D C (CSt.init orig S1) X) {v : V}
    (hv : v ∈ X.T.started) : ∃ p ∈ C.targets v, ¬ Settled M D S.fs S.disk p := by
  have hI := h.inv hC (DryInv.init hb)
  have h1 : S1.fs = S.fs := by cases hb; rfl
  have h2 : S1.db = S.disk := by cases hb; rfl
  rw [← h1, ← h2]
  exact hI.started v hv

/-- **C63, a silent dry run is true.**  If `scons -n` for `orig` ends without a failure, reports no cycle and announces nothing, then `scons` for the same targets, with any schedule, starts
no action and changes no file. -/
theorem C63_nothing_announced_nothing_done {M : Sem B K A} (hM : M.Faithful) {D : Desc V B A} {S S1 : St V B K A} {X Y : CSt V B K A} {C : TM.Cfg V}
    {orig : List V} (hist : Hist M D S) (hC : TM.Groups C (fun n => (D n).isSome)) (hb : Step M D S .begin S1)
    (hdry : NSteps M D C (CSt.init orig S1) X) (hover : X.T.over) (hns : X.T.stopped = false) (hf : X.T.failedTasks = ∅)
    {foundCycle : V → Bool} (hcl : ¬ TM.cleanupRaises X.T foundCycle) (hnone : X.T.started = [])
    (hrun : CSteps M D C (AltIn fun v => (X.T.state v).done) (CSt.init orig S1) Y) : Y.T.started = [] ∧ Y.S.fs = S.fs := by
  obtain ⟨hr, -⟩ := hist.reach hM
  have hD := (hr.inv hM).1
  have hI := hdry.inv hC (DryInv.init hb)
  have hO := hdry.ok hC hb hf
  have hfs : S1.fs = S.fs := by cases hb; rfl
  have hQ := hO.calmed hI
  simp only [hnone, List.not_mem_nil, not_false_eq_true, implies_true, and_true] at hQ
  have hfin : ∀ t ∈ orig, (X.T.state t).done := by
    intro t ht
    by_contra hnd
    have hreach : TM.Reach C (TM.PlainLab C) orig X.T := TM.Steps.mono (fun _ l _ => hC.noSELab l) hI.tm
    exact hcl (TM.C06_unbuilt_target_is_reported (hC.project orig) hreach hover hns foundCycle ht hnd
      (by rintro ⟨f, hff, _⟩; rw [hf] at hff; simp at hff))
  have hrank : ∀ v, (X.T.state v).done → 1 < (X.T.state v).rank := fun v hv => by
    cases e : X.T.state v <;> simp_all [TM.NState.done, TM.NState.rank]
  have hidle : Idle M D S1.fs (fun v => (X.T.state v).done) Y := by
    have hinit : Idle M D S1.fs (fun v => (X.T.state v).done) (CSt.init orig S1) := by
      refine ⟨rfl, rfl, rfl, fun v => ?_, ?_, fun t ht => hQ.settled t ht, fun n l sc h => (by cases h), ⟨by simp [CSt.init, TM.St.init], hfin, by simp [CSt.init, TM.St.init],
        by simp [CSt.init, TM.St.init]⟩⟩
      · cases hb; rfl
      · cases hb; intro c k hk; cases hk
    clear hfin
    induction hrun with
    | refl => exact hinit
    | tail l h1 hP hs ih => exact Idle.step hD hQ.closed (fun t ht => (hO.deps t (hrank t ht)).2) hQ.peers ih hP hs
    | scribble t b _ hr ih => rw [ih.running t] at hr; cases hr
  exact ⟨hidle.started, hidle.fs.trans hfs⟩

/-- **C63, nothing unannounced is rebuilt on its own.**  A real run (any schedule; failures leave no file) executes an action only if the dry run announced it, or announced
something it needs, or did not look at it at all (then it is a dependency that only the rebuilt files brought in). -/
theorem C63_executed_was_announced {M : Sem B K A} (hM : M.Faithful) {D : Desc V B A} {S S1 : St V B K A} {X Y : CSt V B K A} {C : TM.Cfg V}
    {orig : List V} (hist : Hist M D S) (hC : TM.Groups C (fun n => (D n).isSome)) (hb : Step M D S .begin S1)
    (hdry : NSteps M D C (CSt.init orig S1) X) (hf : X.T.failedTasks = ∅) (hrun : CSteps M D C (Tidy C) (CSt.init orig S1) Y) {v : V}
    (hv : v ∈ Y.T.started) : ¬ (X.T.state v).done ∨ ∃ u, Relation.ReflTransGen (Needs D C S.fs) v u ∧ u ∈ X.T.started := by
  obtain ⟨hr, -⟩ := hist.reach hM
  have hD := (hr.inv hM).1
  have hI := hdry.inv hC (DryInv.init hb)
  have hQ := (hdry.ok hC hb hf).calmed hI
  have hfs : S1.fs = S.fs := by cases hb; rfl
  by_contra hcon
  simp only [not_or, not_not, not_exists, not_and] at hcon
  rw [← hfs] at hcon
  exact (hrun.kept hM hD hC hr hb hQ).2.1.started v ⟨hcon.1, hcon.2⟩ hv

/-- **C63, the announcement is exact where nothing below is announced.**  Let `t` be a node that the dry run has finished, and suppose that it announced nothing among the dependencies of
the targets of `t`'s action, their dependencies, and so on.  Then every real run without failures that has finished `t` — any schedule — has executed its action exactly if the dry run
announced it. -/
theorem C63_exact_above_unannounced {M : Sem B K A} (hM : M.Faithful) {D : Desc V B A} {S S1 : St V B K A} {X Y : CSt V B K A} {C : TM.Cfg V}
    {orig : List V} (hist : Hist M D S) (hC : TM.Groups C (fun n => (D n).isSome)) (hb : Step M D S .begin S1)
    (hdry : NSteps M D C (CSt.init orig S1) X) (hf : X.T.failedTasks = ∅) {t : V} (ht : (X.T.state t).done)
    (hdeps : ∀ p ∈ C.targets t, ∀ sc, D p = some sc → ∀ c ∈ (sc.result S.fs).children, ∀ u, Relation.ReflTransGen (Needs D C S.fs) c u → u ∉ X.T.started)
    (hrun : CSteps M D C NoIgnore (CSt.init orig S1) Y) (hfY : Y.T.failedTasks = ∅) (htY : (Y.T.state t).done) :
    (∃ p ∈ C.targets t, p ∈ Y.T.started) ↔ t ∈ X.T.started := by
  obtain ⟨hr, -⟩ := hist.reach hM
  have hD := (hr.inv hM).1
  have hI := hdry.inv hC (DryInv.init hb)
  have hO := hdry.ok hC hb hf
  have hQ := hO.calmed hI
  have hfs : S1.fs = S.fs := by cases hb; rfl
  have hrank : ∀ v, (X.T.state v).done → 1 < (X.T.state v).rank := fun v hv => by
    cases e : X.T.state v <;> simp_all [TM.NState.done, TM.NState.rank]
  have h0 : J M D C orig (CSt.init orig S1) := J.init ⟨_, hr, hb⟩
  have hcl : ∀ p ∈ C.targets t, Closed D S1.fs (fun v => (X.T.state v).done ∧ ∀ u, Relation.ReflTransGen (Needs D C S1.fs) v u → u ∉ X.T.started) p := by
    intro p hp sc hsc c hc
    have hpd : (X.T.state p).done := by rw [hO.peers t (hrank t ht) p hp]; exact ht
    exact ⟨(hO.deps p (hrank p hpd)).1 sc hsc c hc, fun u hu => hdeps p hp sc hsc c (hfs ▸ hc) u (hfs ▸ hu)⟩
  constructor
  · rintro ⟨p, hp, hps⟩
    by_contra hnt
    -- the whole action is settled and so is everything below it
    have htid := hrun.tidy hM hD hC hfY h0
    let Q : V → Prop := fun v => v ∈ C.targets t ∨ ((X.T.state v).done ∧ ∀ u, Relation.ReflTransGen (Needs D C S1.fs) v u → u ∉ X.T.started)
    have hQ' : Calmed M D C S1 Q := by
      refine ⟨fun v hv sc hsc c hc => ?_, fun v hv q hq => ?_, fun v hv => ?_⟩
      · rcases hv with hv | hv
        · exact Or.inr (hcl v hv sc hsc c hc)
        · exact Or.inr (hQ.closed v hv sc hsc c hc)
      · rcases hv with hv | hv
        · left; rw [hC.wf.peers t v hv] at hq; exact hq
        · exact Or.inr (hQ.peers v hv q hq)
      · rcases hv with hv | hv
        · have hvs := hO.peers t (hrank t ht) v hv
          cases e : X.T.state t with
          | upToDate => exact (hO.upto v (hvs.trans e)).1
          | executed => exact absurd (hO.exe t (Or.inr e)) hnt
          | executing => exact absurd (hO.exe t (Or.inl e)) hnt
          | noState => rw [e] at ht; exact ht.elim
          | pending => rw [e] at ht; exact ht.elim
          | failed => rw [e] at ht; exact ht.elim
        · exact hQ.settled v hv
    exact (htid.kept hM hD hC hr hb hQ').2.1.started p (Or.inl hp) hps
  · intro hts
    have hns := hI.started t hts
    have hJY := hrun.j_of_no_failure hM hD hC hfY h0
    rcases hrun.untouched hM hD hC hr hb hQ hcl hns hfY with e | e
    · exact e
    · exact absurd (hJY.done1 t htY) (e t (hC.wf.self t)).2.1

end Verif.Build
