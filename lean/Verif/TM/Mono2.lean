import Verif.TM.Mono

/-! The second invariant is preserved by every step. -/

set_option linter.unusedSectionVars false
set_option linter.unusedSimpArgs false
set_option linter.unusedVariables false

namespace Verif.TM
variable {V : Type} [DecidableEq V] [Fintype V]

theorem postprocess_failedTasks {C : Cfg V} {S S' : St V} {ts post : List V} (h : postprocess C S ts post = some S') :
    S'.failedTasks = S.failedTasks ∧ S'.started = S.started ∧ S'.active = S.active ∧ S'.seen = S.seen ∧
    S'.stopped = S.stopped ∧ S'.tops = S.tops ∧ S'.clock = S.clock := by
  unfold postprocess at h
  simp only at h
  split at h
  · injection h with h; rw [← h]; simp
  · cases h

theorem failTask_fields {C : Cfg V} {S S' : St V} {ts post : List V} {m : FailMode} (h : failTask C S ts m post = some S') :
    S'.failedTasks = S.failedTasks ∪ ts.toFinset ∧ S'.started = S.started ∧ S'.active = S.active ∧ S'.seen = S.seen ∧
    S'.stopped = (S.stopped || decide (m = .stop)) ∧ S'.tops = S.tops ∧ S'.clock = S.clock := by
  unfold failTask at h
  cases m <;> simp only at h <;>
  · obtain ⟨h1, h2, h3, h4, h5, h6, h7⟩ := postprocess_failedTasks h
    simp [h1, h2, h3, h4, h5, h6, h7, willNotBuild, executed]

theorem makeReady_fields (C : Cfg V) (S : St V) (ts : List V) (b : Bool) : OnlyState S (makeReady C S ts b) := by
  cases b <;> constructor <;> rfl

/-- What `handOut` does to the history. -/
theorem handOut_failedTasks {C : Cfg V} {S S' : St V} {n : V} {fate : Fate} {post : List V}
    (h : handOut C S n fate post = some S') :
    S'.failedTasks = S.failedTasks ∨ S'.failedTasks = S.failedTasks ∪ (C.targets n).toFinset := by
  unfold handOut at h
  cases fate with
  | exc m => exact Or.inr (failTask_fields h).1
  | excReady b m => right; rw [(failTask_fields h).1, (makeReady_fields C S _ b).failedTasks]
  | internal res =>
    cases res with
    | none => left; rw [(postprocess_failedTasks h).1, (executed_only C _ _).failedTasks, (makeReady_fields C S _ _).failedTasks]
    | some m => right; rw [(failTask_fields h).1, (makeReady_fields C S _ _).failedTasks]
  | start => simp only [Option.some.injEq] at h; rw [← h]; exact Or.inl (makeReady_fields C S _ _).failedTasks

theorem nextCandidate_active {S S1 : St V} {alt : List V} {n : V} (hnc : nextCandidate S alt = some (S1, n)) :
    S1.active = S.active := by
  unfold nextCandidate at hnc; split at hnc
  · simp only [Option.some.injEq, Prod.mk.injEq] at hnc; rw [← hnc.1]
  · split at hnc
    · cases hnc
    · simp only at hnc; split at hnc
      · simp only [Option.some.injEq, Prod.mk.injEq] at hnc; rw [← hnc.1]
      · cases hnc

/-! ### Targets of outstanding tasks are executing (or were marked failed), never done -/

/-- every target of an outstanding task is executing or failed -/
def ActX (C : Cfg V) (S : St V) : Prop :=
  ∀ n ∈ S.active, ∀ m ∈ C.targets n, (S.state m = .executing ∨ S.state m = .failed) ∧ ¬ C.isSE m

theorem ActX.congr {C : Cfg V} {S S' : St V} (h : ActX C S) (h1 : S'.active = S.active) (h2 : S'.state = S.state) :
    ActX C S' := by unfold ActX; rw [h1, h2]; exact h

/-- `ts` has no target in common with an outstanding task -/
def ActDisj (C : Cfg V) (S : St V) (ts : List V) : Prop := ∀ n ∈ S.active, ∀ m ∈ C.targets n, m ∉ ts

theorem ActX.postprocess {C : Cfg V} {S S' : St V} {ts post : List V} (h : ActX C S)
    (hp : TM.postprocess C S ts post = some S') : ActX C S' := by
  have hf := postprocess_failedTasks hp
  unfold TM.postprocess at hp
  simp only at hp
  split at hp
  case isFalse => cases hp
  injection hp with hp
  intro n hn m hm
  rw [hf.2.2.1] at hn
  have h1 := h n hn m hm
  refine ⟨?_, h1.2⟩
  rw [← hp]; simp only [updOn_apply]; rw [if_neg]
  · exact h1.1
  · rintro ⟨h2, _⟩; exact h1.2 (isSE_of_ses (List.mem_toFinset.1 h2))

theorem ActX.executed {C : Cfg V} {S : St V} {ts : List V} (h : ActX C S) (hd : ActDisj C S ts) :
    ActX C (executed C S ts) := by
  intro n hn m hm
  have h1 := h n hn m hm
  refine ⟨?_, h1.2⟩
  rw [executed_state_nse h1.2, if_neg (fun h2 => hd n hn m hm h2.1)]; exact h1.1

theorem ActX.wnb {C : Cfg V} {S : St V} {A : Finset V} {b : Bool} (h : ActX C S) : ActX C (willNotBuild S A b) := by
  intro n hn m hm
  have h1 := h n hn m hm
  refine ⟨?_, h1.2⟩
  unfold willNotBuild
  cases b
  · exact h1.1
  · simp only [if_true, updOn_apply]; split
    · exact Or.inr rfl
    · exact h1.1

theorem ActX.failTask {C : Cfg V} {S S' : St V} {ts post : List V} {m : FailMode} (h : ActX C S) (hd : ActDisj C S ts)
    (hp : TM.failTask C S ts m post = some S') : ActX C S' := by
  have h0 : ActX C { S with failedTasks := S.failedTasks ∪ ts.toFinset } := h
  have hd0 : ActDisj C { S with failedTasks := S.failedTasks ∪ ts.toFinset } ts := hd
  unfold TM.failTask at hp
  cases m <;> simp only at hp
  · have h1 : ActX C { willNotBuild { S with failedTasks := S.failedTasks ∪ ts.toFinset } ts.toFinset true with
      stopped := true } := (h0.wnb (A := ts.toFinset) (b := true)).congr rfl rfl
    exact h1.postprocess hp
  · exact h0.wnb.postprocess hp
  · exact (h0.executed hd0).postprocess hp

theorem ActX.makeReady {C : Cfg V} {S : St V} {ts : List V} {b : Bool} (h : ActX C S) (hd : ActDisj C S ts) :
    ActX C (makeReady C S ts b) := by
  intro n hn m hm
  rw [(makeReady_fields C S ts b).active] at hn
  have h1 := h n hn m hm
  refine ⟨?_, h1.2⟩
  cases b
  · simp only [TM.makeReady, Bool.false_eq_true, if_false, updOn_apply]
    rw [if_neg (hd n hn m hm)]; exact h1.1
  · simp only [TM.makeReady, if_true, updOn_apply]
    split
    · exact Or.inl rfl
    · exact h1.1

theorem ActX.handOut {C : Cfg V} {S S' : St V} {n : V} {fate : Fate} {post : List V} (h : ActX C S)
    (hts : ∀ m ∈ C.targets n, ¬ C.isSE m) (hd : ActDisj C S (C.targets n))
    (hh : TM.handOut C S n fate post = some S') : ActX C S' := by
  have hm : ∀ b, ActX C (TM.makeReady C S (C.targets n) b) := fun b => h.makeReady hd
  have hmd : ∀ b, ActDisj C (TM.makeReady C S (C.targets n) b) (C.targets n) := by
    intro b; unfold ActDisj; rw [(makeReady_fields C S _ b).active]; exact hd
  unfold TM.handOut at hh
  cases fate with
  | exc m => exact h.failTask hd hh
  | excReady b m => exact (hm b).failTask (hmd b) hh
  | internal res =>
    cases res with
    | none => exact ((hm false).executed (hmd false)).postprocess hh
    | some m => exact (hm false).failTask (hmd false) hh
  | start =>
    simp only [Option.some.injEq] at hh
    rw [← hh]
    intro k hk m hkm
    simp only [List.mem_cons] at hk
    rcases hk with rfl | hk
    · refine ⟨Or.inl ?_, hts m hkm⟩
      simp only [TM.makeReady, if_true, updOn_apply]; rw [if_pos (Or.inl hkm)]
    · exact hm true k hk m hkm

theorem judge_state {C : Cfg V} {S : St V} {n : V} {all : List V} :
    (judge C S n all).1.active = S.active ∧
    ∀ x, (judge C S n all).1.state x = S.state x ∨ (judge C S n all).1.state x = .failed := by
  unfold judge
  split
  · refine ⟨rfl, fun x => ?_⟩
    simp only [updOn_apply]; split
    · exact Or.inr rfl
    · exact Or.inl rfl
  · simp only
    split
    · refine ⟨(addWaiting_fields _ _ _).2.2.2.2.2.2.2.1, fun x => Or.inl ?_⟩
      rw [(addWaiting_fields _ _ _).1]
    · split <;> exact ⟨rfl, fun x => Or.inl rfl⟩

theorem considerNode_state {C : Cfg V} {S S' : St V} {n : V} {scan : Scan V} {pushed : List V} {o : Outcome}
    (h : considerNode C S n scan pushed = some (S', o)) :
    S'.active = S.active ∧ ∀ x, S'.state x = S.state x ∨ S'.state x = .failed ∨
      (x = n ∧ (S.state n).rank ≤ 1) := by
  unfold considerNode at h
  split at h
  · simp only [Option.some.injEq, Prod.mk.injEq] at h; rw [← h.1]; exact ⟨rfl, fun x => Or.inl rfl⟩
  · rename_i hr
    have hmp : ∀ x, (markPending S n).state x = S.state x ∨ (x = n ∧ (S.state n).rank ≤ 1) := by
      intro x; by_cases hx : x = n
      · exact Or.inr ⟨hx, by omega⟩
      · left; simp [markPending, upd, hx]
    split at h
    · simp only [Option.some.injEq, Prod.mk.injEq] at h; rw [← h.1]
      exact ⟨rfl, fun x => (hmp x).imp_right Or.inr⟩
    · simp only at h
      split at h
      · simp only [Option.some.injEq] at h
        have h1 := congrArg Prod.fst h
        simp only at h1
        rw [← h1]
        refine ⟨judge_state.1, fun x => ?_⟩
        rcases (judge_state (C := C) (S := pushKids C (markPending S n) n (C.prereqs n ++ _) pushed) (n := n)
          (all := C.prereqs n ++ _)).2 x with h2 | h2
        · rw [h2]; exact (hmp x).imp_right Or.inr
        · exact Or.inr (Or.inl h2)
      · cases h

theorem ActX.considerNode {C : Cfg V} {S S' : St V} {n : V} {scan : Scan V} {pushed : List V} {o : Outcome}
    (h : ActX C S) (hc : TM.considerNode C S n scan pushed = some (S', o)) : ActX C S' := by
  obtain ⟨h1, h2⟩ := considerNode_state hc
  intro k hk m hm
  rw [h1] at hk
  have h3 := h k hk m hm
  refine ⟨?_, h3.2⟩
  rcases h2 m with h4 | h4 | ⟨h4, h5⟩
  · rw [h4]; exact h3.1
  · exact Or.inr h4
  · rw [← h4] at h5; rcases h3.1 with h6 | h6 <;> rw [h6] at h5 <;> simp [NState.rank] at h5

/-- a pending node shares no target with an outstanding task -/
theorem ActX.disj {C : Cfg V} {S : St V} (hC : C.WF) (h : ActX C S) {n : V} (hn : S.state n = .pending) :
    ActDisj C S (C.targets n) := by
  intro k hk m hm hmn
  have h1 : n ∈ C.targets k := by
    rw [← hC.peers k m hm, hC.peers n m hmn]; exact hC.self n
  rcases (h k hk n h1).1 with h2 | h2 <;> rw [hn] at h2 <;> cases h2

theorem ActX.step {C : Cfg V} {orig : List V} {S S' : St V} {l : Lab V} (hC : C.WF) (hI : C.SEIso)
    (hi : Inv C orig S) (h : ActX C S) (hl : l.noSE C) (hs : TM.step C S l = some S') : ActX C S' := by
  cases l with
  | consider alt scan pushed fate post =>
    simp only [TM.step] at hs
    split at hs
    · cases hs
    split at hs
    · cases hs
    rename_i S1 n hnc
    obtain ⟨h1i, hn⟩ := InvE.nextCandidate hi hl.1 hnc
    obtain ⟨g1, g2, g3, g4, g5, g6⟩ := nextCandidate_fields hnc
    have ga := nextCandidate_active hnc
    have h1 : ActX C S1 := by unfold ActX; rw [ga, g1]; exact h
    split at hs
    · cases hs
    · rename_i S2 hcn
      simp only [Option.some.injEq] at hs
      have h2 := h1.considerNode hcn
      rw [← hs]; exact h2
    · rename_i S2 hcn
      have h2i := h1i.considerNode hC hI hn hl.2 hcn
      simp only [reduceCtorEq, if_false, ne_eq, not_false_eq_true, true_implies] at h2i
      have h2 := h1.considerNode hcn
      split at hs
      · rw [Option.map_eq_some_iff] at hs
        obtain ⟨S3, hS3, rfl⟩ := hs
        exact (h2.handOut (hI.tgt n hn) (h2.disj hC h2i.2) hS3).congr rfl rfl
      · cases hs
    · rename_i S2 hcn
      have h2i := h1i.considerNode hC hI hn hl.2 hcn
      simp only [reduceCtorEq, if_false, ne_eq, not_false_eq_true, true_implies] at h2i
      have h2 := h1.considerNode hcn
      rw [Option.map_eq_some_iff] at hs
      obtain ⟨S3, hS3, rfl⟩ := hs
      exact (h2.handOut (hI.tgt n hn) (h2.disj hC h2i.2) hS3).congr rfl rfl
  | finish n res post =>
    simp only [TM.step] at hs
    split at hs
    case isFalse => cases hs
    case isTrue hact =>
    have h1 : ActX C { S with active := S.active.erase n, clock := S.clock + 1 } :=
      fun k hk m hm => h k (List.mem_of_mem_erase hk) m hm
    have hd : ActDisj C { S with active := S.active.erase n, clock := S.clock + 1 } (C.targets n) := by
      intro k hk m hm hmn
      have hne : k ≠ n := by
        rintro rfl
        exact (hi.startedRest.actNodup.not_mem_erase) hk
      exact hne (hi.startedRest.actPeer k (List.mem_of_mem_erase hk) n hact (by
        rw [← hC.peers k m hm, hC.peers n m hmn]; exact hC.self n)).symm
    split at hs
    · exact (h1.executed hd).postprocess hs
    · exact h1.failTask hd hs
  | flush =>
    simp only [TM.step] at hs
    split at hs
    case isFalse => cases hs
    simp only [Option.some.injEq] at hs
    rw [← hs]
    have h0 : ActX C { S with cands := [] } := h
    exact (h0.wnb (A := S.cands.toFinset) (b := false)).congr rfl rfl
  | interrupt =>
    simp only [TM.step, Option.some.injEq] at hs
    rw [← hs]; exact h

structure MI (C : Cfg V) (ni : Prop) (S : St V) : Prop where
  inv : MInv C ni S (fun _ => False)
  ft : ∀ f ∈ S.failedTasks, ¬ C.isSE f
  act : ActX C S

theorem MI.init {C : Cfg V} {ni : Prop} {orig : List V} : MI C ni (St.init orig) := by
  constructor
  · constructor <;> simp [St.init, NState.past]
  · simp [St.init]
  · simp [St.init, ActX]

theorem MI.handOut {C : Cfg V} {ni : Prop} {orig : List V} {S S' : St V} {n : V} {fate : Fate} {post : List V} (hC : C.WF)
    (hI : C.SEIso) (hi : InvE C orig S (· = n) (fun _ => False)) (h : MI C ni S) (hn : ¬ C.isSE n)
    (hpn : S.state n = .pending)
    (hk : (∃ m, fate = .exc m) ∨ ∀ c ∈ S.seen n, (S.state c).done)
    (hni : ni → fate ≠ .exc .ignore ∧ (∀ b, fate ≠ .excReady b .ignore) ∧ fate ≠ .internal (some .ignore))
    (hh : TM.handOut C S n fate post = some S') : MI C ni S' := by
  refine ⟨MInv.handOut hC hI hi h.inv hn h.ft hpn hk hni hh, ?_, h.act.handOut (hI.tgt n hn) (h.act.disj hC hpn) hh⟩
  intro f hf
  rcases handOut_failedTasks hh with h1 | h1 <;> rw [h1] at hf
  · exact h.ft f hf
  · rcases Finset.mem_union.1 hf with h2 | h2
    · exact h.ft f h2
    · exact hI.tgt n hn f (List.mem_toFinset.1 h2)

theorem MI.step {C : Cfg V} {ni : Prop} {orig : List V} {S S' : St V} {l : Lab V} (hC : C.WF) (hI : C.SEIso)
    (hi : Inv C orig S) (h : MI C ni S) (hl : l.noSE C) (hg : l.scanGrows C S) (hni : ni → l.noIgnore)
    (hs : TM.step C S l = some S') : MI C ni S' := by
  have hact' := ActX.step hC hI hi h.act hl hs
  cases l with
  | consider alt scan pushed fate post =>
    simp only [TM.step] at hs
    split at hs
    · cases hs
    split at hs
    · cases hs
    rename_i S1 n hnc
    obtain ⟨h1i, hn⟩ := InvE.nextCandidate hi hl.1 hnc
    obtain ⟨g1, g2, g3, g4, g5, g6⟩ := nextCandidate_fields hnc
    have h1 : MI C ni S1 := ⟨h.inv.congr g2 g1 g3 g4 g5, by rw [g5]; exact h.ft, by unfold ActX; rw [nextCandidate_active hnc, g1]; exact h.act⟩
    have hgr : ∀ kids, scan = .ok kids → ∀ c ∈ S1.seen n, c ∈ C.prereqs n ++ kids := by
      intro kids hk; rw [g4]; exact hg S1 n kids hnc hk
    split at hs
    · cases hs
    · rename_i S2 hcn
      obtain ⟨h2, h3, h4⟩ := MInv.considerNode hC hI h1i h1.inv hn h1.ft hgr hcn
      simp only [Option.some.injEq] at hs
      rw [← hs]
      exact ⟨h2.congr rfl rfl rfl rfl rfl, by simp only [h3]; exact h1.ft, hs ▸ hact'⟩
    · rename_i S2 hcn
      have h2i := h1i.considerNode hC hI hn hl.2 hcn
      obtain ⟨h2, h3, h4⟩ := MInv.considerNode hC hI h1i h1.inv hn h1.ft hgr hcn
      simp only [reduceCtorEq, if_false, ne_eq, not_false_eq_true, true_implies] at h2i
      split at hs
      · rename_i m
        rw [Option.map_eq_some_iff] at hs
        obtain ⟨S3, hS3, rfl⟩ := hs
        have h5 : MI C ni S3 := by
          refine MI.handOut hC hI h2i.1 ⟨h2, by rw [h3]; exact h1.ft, h1.act.considerNode hcn⟩ hn h2i.2 (Or.inl ⟨m, rfl⟩) ?_ hS3
          intro h6; have := hni h6
          refine ⟨?_, by simp, by simp⟩
          intro h7; cases m <;> simp_all [Lab.noIgnore]
        exact ⟨h5.inv.congr rfl rfl rfl rfl rfl, h5.ft, h5.act⟩
      · cases hs
    · rename_i S2 hcn
      have h2i := h1i.considerNode hC hI hn hl.2 hcn
      obtain ⟨h2, h3, h4⟩ := MInv.considerNode hC hI h1i h1.inv hn h1.ft hgr hcn
      simp only [reduceCtorEq, if_false, ne_eq, not_false_eq_true, true_implies] at h2i
      rw [Option.map_eq_some_iff] at hs
      obtain ⟨S3, hS3, rfl⟩ := hs
      have h5 : MI C ni S3 := by
        refine MI.handOut hC hI h2i.1 ⟨h2, by rw [h3]; exact h1.ft, h1.act.considerNode hcn⟩ hn h2i.2 (Or.inr (h4 rfl)) ?_ hS3
        intro h6; have := hni h6
        refine ⟨?_, ?_, ?_⟩
        · rintro rfl; exact this
        · rintro b rfl; exact this
        · rintro rfl; exact this
      exact ⟨h5.inv.congr rfl rfl rfl rfl rfl, h5.ft, h5.act⟩
  | finish n res post =>
    simp only [TM.step] at hs
    split at hs
    case isFalse => cases hs
    case isTrue hact =>
    have hn := hi.seAct n hact
    have hts : ∀ x ∈ C.targets n, ¬ C.isSE x := hI.tgt n hn
    have hcl : ∀ x ∈ C.targets n, ∀ m ∈ C.targets x, m ∈ C.targets n := by
      intro x hx m hm; rw [hC.peers n x hx] at hm; exact hm
    have h1i := Inv.finishPre hi hact
    -- nothing that is already past depends on a target of this task: its targets are not done
    have hnd : ∀ m ∈ C.targets n, ¬ (S.state m).done := fun m hm hd => by
      rcases (h.act n hact m hm).1 with h2 | h2 <;> rw [h2] at hd <;> exact hd
    have h1 : MInv C ni { S with active := S.active.erase n, clock := S.clock + 1 } (· ∈ C.targets n) :=
      { waiting := h.inv.waiting
        deps := by
          intro x hx h2 c hc
          have h3 := (h.inv.deps x hx h2 c hc).1
          exact ⟨h3, fun h4 => hnd c h4 h3⟩
        failed := h.inv.failed, ftask := h.inv.ftask, past := h.inv.past }
    have hft1 : ∀ f ∈ ({ S with active := S.active.erase n, clock := S.clock + 1 } : St V).failedTasks, ¬ C.isSE f := h.ft
    split at hs
    · refine ⟨MInv.postprocess (h1i.executed hts) (MInv.executed h1i h1 hI hts hft1) hft1 hI hs _ (fun _ h => h.elim), ?_, hact'⟩
      rw [(postprocess_failedTasks hs).1]; exact h.ft
    · rename_i m
      refine ⟨MInv.failTask hC hI h1i h1 hts hcl hft1 ?_ hs, ?_, hact'⟩
      · rintro h6 rfl; exact hni h6
      · rw [(failTask_fields hs).1]
        intro f hf; rcases Finset.mem_union.1 hf with h2 | h2
        · exact h.ft f h2
        · exact hts f (List.mem_toFinset.1 h2)
  | flush =>
    simp only [TM.step] at hs
    split at hs
    case isFalse => cases hs
    case isTrue hst =>
    simp only [Option.some.injEq] at hs
    rw [← hs]
    have h1 : MInv C ni { S with cands := [] } (fun _ => False) := h.inv.congr rfl rfl rfl rfl rfl
    exact ⟨(h1.wnbNoMark (A := S.cands.toFinset)).congr rfl rfl rfl rfl rfl, h.ft, h.act⟩
  | interrupt =>
    simp only [TM.step, Option.some.injEq] at hs
    rw [← hs]
    exact ⟨h.inv.congr rfl rfl rfl rfl rfl, h.ft, h.act⟩

end Verif.TM
