import Verif.TM.Props

/-!
# What one step does to states and waiting parents, without side effects

Used by `Verif.Build.Compose`: configurations where every executor has any number of targets and there are no side effects.
-/

set_option linter.unusedSectionVars false
set_option linter.unusedSimpArgs false
set_option linter.unusedVariables false

namespace Verif.TM
variable {V : Type} [DecidableEq V] [Fintype V]

/-- Executors with any number of targets; no side effects.  `tgt`: the nodes that have a builder, the others are alone in their (Null) executor. -/
structure Groups (C : Cfg V) (tgt : V → Prop) : Prop where
  wf : C.WF
  noSE : ∀ n, C.sideEffects n = []
  src : ∀ n, ¬ tgt n → C.targets n = [n]
  all : ∀ n, tgt n → ∀ m ∈ C.targets n, tgt m
  real : ∀ n, tgt n → ∀ m ∈ C.targets n, m ∈ C.actTargets n
  pre : ∀ n, ∀ m ∈ C.targets n, C.prereqs m = C.prereqs n

/-- One target for each executor. -/
theorem Groups.solo {C : Cfg V} {tgt : V → Prop} (one : ∀ n, C.targets n = [n]) (noSE : ∀ n, C.sideEffects n = []) (act : ∀ n, ∀ m ∈ C.actTargets n, m = n)
    (real : ∀ n, tgt n → n ∈ C.actTargets n) : Groups C tgt where
  wf := ⟨fun n => by rw [one]; simp, fun n m hm => by rw [one] at hm; simp at hm; rw [hm],
    fun n m hm => by rw [act n m hm, one]; simp, fun n => by rw [one]; simp⟩
  noSE := noSE
  src := fun n _ => one n
  all := fun n h m hm => by rw [one] at hm; simp at hm; rw [hm]; exact h
  real := fun n h m hm => by rw [one] at hm; simp at hm; rw [hm]; exact real n h
  pre := fun n m hm => by rw [one] at hm; simp at hm; rw [hm]

theorem Groups.notSE {C : Cfg V} {tgt : V → Prop} (h : Groups C tgt) (x : V) : ¬ C.isSE x := by
  rintro ⟨t, ht⟩; rw [h.noSE] at ht; simp at ht

theorem Groups.ses {C : Cfg V} {tgt : V → Prop} (h : Groups C tgt) (ts : List V) : C.ses ts = [] := by
  unfold Cfg.ses; rw [List.flatMap_eq_nil_iff]; intro x _; exact h.noSE x

theorem Groups.project {C : Cfg V} {tgt : V → Prop} (h : Groups C tgt) (orig : List V) : Project C orig where
  wf := h.wf
  iso := ⟨fun n _ m _ => h.notSE m, fun n c _ => h.notSE c⟩
  top := fun x _ => h.notSE x

theorem Groups.noSELab {C : Cfg V} {tgt : V → Prop} (h : Groups C tgt) (l : Lab V) : l.noSE C := by
  cases l <;> simp only [Lab.noSE]
  exact ⟨fun x _ => h.notSE x, fun _ _ x _ => h.notSE x⟩

theorem Groups.postprocess {C : Cfg V} {tgt : V → Prop} (h : Groups C tgt) {S S' : St V} {ts post : List V}
    (hp : TM.postprocess C S ts post = some S') :
    S'.state = S.state ∧ S'.stopped = S.stopped ∧ S'.active = S.active ∧ ∀ c, S'.wp c = if c ∈ ts then ∅ else S.wp c := by
  unfold TM.postprocess at hp
  simp only at hp
  split at hp
  case isFalse => cases hp
  injection hp with hp
  generalize hR : (ts.toFinset ∪ (C.ses ts).toFinset.filter
    (fun s => updOn S.state (fun s => s ∈ (C.ses ts).toFinset ∧ S.state s = NState.executing) .noState s = .noState)) = R at *
  have hRm : ∀ c, c ∈ R ↔ c ∈ ts := by
    intro c; rw [← hR]; simp [h.ses]
  subst hp
  refine ⟨?_, rfl, rfl, fun c => ?_⟩
  · funext x; simp [updOn_apply, h.ses]
  · simp only [updOn_apply, hRm]

theorem Groups.executed {C : Cfg V} {tgt : V → Prop} (h : Groups C tgt) (S : St V) (ts : List V) :
    (TM.executed C S ts).state = (fun x => if x ∈ ts ∧ S.state x = .executing then .executed else S.state x) := by
  funext x
  simp only [TM.executed, h.ses]
  simp

/-- After the failure of the task of the targets `ts`. -/
structure FailFacts (ts : List V) (S S' : St V) : Prop where
  self : ∀ t ∈ ts, S'.state t = .failed
  state : ∀ x, S'.state x = S.state x ∨ S'.state x = .failed
  wp : S'.stopped = false → ∀ p d, p ∈ S.wp d → p ∈ S'.wp d ∨ (S'.state p = .failed ∧ S'.state d = .failed)

theorem Groups.failTask {C : Cfg V} {tgt : V → Prop} (h : Groups C tgt) {S S' : St V} {ts : List V} {m : FailMode} {post : List V}
    (hm : m ≠ .ignore) (hp : TM.failTask C S ts m post = some S') : FailFacts ts S S' := by
  unfold TM.failTask at hp
  have hU : ∀ t ∈ ts, t ∈ upSet S.wp ts.toFinset := fun t ht => subset_upSet _ _ (by simpa using ht)
  cases m with
  | ignore => exact absurd rfl hm
  | keepGoing =>
    obtain ⟨p1, p2, -, p3⟩ := h.postprocess hp
    have hst : ∀ x, S'.state x = if x ∈ upSet S.wp ts.toFinset then .failed else S.state x := by
      intro x; rw [p1]; simp [willNotBuild, updOn_apply]
    refine ⟨fun t ht => by rw [hst, if_pos (hU t ht)], fun x => ?_, fun _ p d hpd => ?_⟩
    · rw [hst]; split
      · exact Or.inr rfl
      · exact Or.inl rfl
    · by_cases hd : d ∈ upSet S.wp ts.toFinset
      · right; rw [hst, if_pos (upSet_closed _ _ d hd p hpd), hst, if_pos hd]; exact ⟨rfl, rfl⟩
      · left
        rw [p3]
        have hdn : d ∉ ts := fun e => hd (hU d e)
        simp only [hdn, if_false, willNotBuild, updOn_apply]
        rw [if_neg hd]; exact hpd
  | stop =>
    obtain ⟨p1, p2, -, p3⟩ := h.postprocess hp
    have hst : ∀ x, S'.state x = if x ∈ upSet S.wp ts.toFinset then .failed else S.state x := by
      intro x; rw [p1]; simp [willNotBuild, updOn_apply]
    refine ⟨fun t ht => by rw [hst, if_pos (hU t ht)], fun x => ?_, fun hs => ?_⟩
    · rw [hst]; split
      · exact Or.inr rfl
      · exact Or.inl rfl
    · rw [p2] at hs; simp at hs

/-- the task of `n` ends successfully -/
theorem Groups.finish_ok {C : Cfg V} {tgt : V → Prop} (h : Groups C tgt) {S S' : St V} {n : V} {post : List V}
    (hs : TM.step C S (.finish n none post) = some S') :
    n ∈ S.active ∧ S'.active = S.active.erase n ∧ S'.stopped = S.stopped ∧
    (∀ x, S'.state x = if x ∈ C.targets n ∧ S.state x = .executing then .executed else S.state x) ∧
    ∀ c, S'.wp c = if c ∈ C.targets n then ∅ else S.wp c := by
  simp only [TM.step] at hs
  split at hs
  case isFalse => cases hs
  rename_i hact
  obtain ⟨p1, p2, p3, p4⟩ := h.postprocess hs
  refine ⟨hact, p3, p2, fun x => ?_, fun c => ?_⟩
  · rw [p1, h.executed]
  · rw [p4]; simp [TM.executed]

/-- the task of `n` ends with a failure -/
theorem Groups.finish_fail {C : Cfg V} {tgt : V → Prop} (h : Groups C tgt) {S S' : St V} {n : V} {m : FailMode} {post : List V}
    (hm : m ≠ .ignore) (hs : TM.step C S (.finish n (some m) post) = some S') :
    n ∈ S.active ∧ S'.active = S.active.erase n ∧ (S.stopped = true → S'.stopped = true) ∧ FailFacts (C.targets n) S S' := by
  simp only [TM.step] at hs
  split at hs
  case isFalse => cases hs
  rename_i hact
  have hf := failTask_fields hs
  have hF := h.failTask hm hs
  exact ⟨hact, hf.2.2.1, fun h0 => by rw [hf.2.2.2.2.1, h0]; rfl, ⟨hF.self, hF.state, hF.wp⟩⟩

/-- `n` was looked at and not returned. -/
structure SkipFacts (C : Cfg V) (tgt : V → Prop) (n : V) (scan : Scan V) (S S' : St V) : Prop where
  active : S'.active = S.active
  stopped : S'.stopped = S.stopped
  state : ∀ x, S'.state x = S.state x ∨ S'.state x = .failed ∨ (x = n ∧ S'.state n = .pending ∧ (S.state n).rank ≤ 1)
  wp : ∀ x, S.wp x ⊆ S'.wp x
  kids : (S.state n).rank ≤ 1 → tgt n → ∃ ks, scan = .ok ks ∧
    ((∀ m ∈ C.targets n, S'.state m = .failed) ∨ ∀ c ∈ ks, (S.state c).done ∨ n ∈ S'.wp c)

theorem Groups.skip {C : Cfg V} {tgt : V → Prop} (h : Groups C tgt) {S S' : St V} {n : V} {scan : Scan V} {pushed : List V}
    (hc : TM.considerNode C S n scan pushed = some (S', .skip)) : SkipFacts C tgt n scan S S' := by
  have hwp := considerNode_wp_mono hc
  have hmi := considerNode_misc hc
  obtain ⟨hact, hst⟩ := considerNode_state hc
  refine ⟨hact, hmi.2.1, ?_, hwp, ?_⟩
  · intro x
    rcases hst x with h1 | h1 | ⟨rfl, h1⟩
    · exact Or.inl h1
    · exact Or.inr (Or.inl h1)
    · unfold TM.considerNode at hc
      rw [if_neg (by omega)] at hc
      split at hc
      · simp at hc
      · simp only at hc
        split at hc
        case isFalse => cases hc
        simp only [Option.some.injEq] at hc
        have h3 := congrArg Prod.fst hc
        simp only at h3
        unfold judge at h3
        split at h3
        · rw [← h3]; simp only [updOn_apply]
          split
          · exact Or.inr (Or.inl rfl)
          · right; right; exact ⟨trivial, by simp [pushKids, markPending, upd], h1⟩
        · simp only at h3
          split at h3
          · right; right; refine ⟨rfl, ?_, h1⟩
            rw [← h3]; simp only [(addWaiting_fields _ _ _).1]; simp [pushKids, markPending, upd]
          · split at h3 <;> (right; right; refine ⟨rfl, ?_, h1⟩; rw [← h3]; simp [pushKids, markPending, upd])
  · intro hr ht
    unfold TM.considerNode at hc
    rw [if_neg (by omega)] at hc
    split at hc
    · simp at hc
    · rename_i ks
      refine ⟨ks, rfl, ?_⟩
      simp only at hc
      split at hc
      case isFalse => cases hc
      simp only [Option.some.injEq] at hc
      unfold judge at hc
      split at hc
      · left
        have h3 := congrArg Prod.fst hc
        simp only at h3
        intro m hm
        rw [← h3]; simp [updOn_apply, h.real n ht m hm]
      · rename_i hany
        simp only at hc
        split at hc
        · right
          have h3 := congrArg Prod.fst hc
          simp only at h3
          intro c hck
          by_cases hcr : ((markPending S n).state c).rank ≤ 2
          · right
            rw [← h3]; simp only [addWaiting_wp]
            rw [if_pos]
            · simp
            · simp only [List.mem_filter, List.mem_append, decide_eq_true_eq]
              exact ⟨Or.inr hck, hcr⟩
          · left
            simp only [List.any_eq_true, List.mem_append, decide_eq_true_eq, not_exists, not_and] at hany
            have h4 := NState.done_of hcr (hany c (Or.inr hck))
            simp only [markPending, upd] at h4
            split at h4
            · exact h4.elim
            · exact h4
        · split at hc
          · rename_i hb; exact absurd (by rw [h.ses]; rfl) hb
          · simp at hc

/-- What an iteration of the search loop does. -/
inductive Considered (C : Cfg V) (tgt : V → Prop) (S S' : St V) (alt : List V) (scan : Scan V) (pushed : List V) (n : V) : Fate → Prop
  | skip (fate) : returned C S alt scan pushed = none → SkipFacts C tgt n scan S S' → Considered C tgt S S' alt scan pushed n fate
  | raised (m) : returned C S alt scan pushed = none → scan = .raised → (S.state n).rank ≤ 1 → S'.active = S.active → FailFacts (C.targets n) S S' →
      Considered C tgt S S' alt scan pushed n (.exc m)
  | failed (fate) (m) : fate.failure = some m → returned C S alt scan pushed = some n → S'.active = S.active → FailFacts (C.targets n) S S' →
      Considered C tgt S S' alt scan pushed n fate
  | current : returned C S alt scan pushed = some n → S'.active = S.active → S'.stopped = S.stopped →
      (∀ x, S'.state x = if x ∈ C.targets n then .upToDate else S.state x) → (∀ c, S'.wp c = if c ∈ C.targets n then ∅ else S.wp c) →
      Considered C tgt S S' alt scan pushed n (.internal none)
  | start : returned C S alt scan pushed = some n → S'.active = n :: S.active → S'.stopped = S.stopped →
      (∀ x, S'.state x = if x ∈ C.targets n then .executing else S.state x) → (∀ c, S'.wp c = S.wp c) →
      Considered C tgt S S' alt scan pushed n .start

theorem Lab.noIgnore_fate {alt : List V} {scan : Scan V} {pushed post : List V} {fate : Fate} {m : FailMode}
    (h : Lab.noIgnore (.consider alt scan pushed fate post)) (hf : fate.failure = some m) : m ≠ .ignore := by
  rintro rfl
  cases fate with
  | exc m => simp only [Fate.failure, Option.some.injEq] at hf; subst hf; exact h
  | excReady b m => simp only [Fate.failure, Option.some.injEq] at hf; subst hf; exact h
  | internal r => simp only [Fate.failure] at hf; subst hf; exact h
  | start => simp [Fate.failure] at hf

theorem considerNode_ready_wp {C : Cfg V} {S S' : St V} {n : V} {scan : Scan V} {pushed : List V}
    (hc : TM.considerNode C S n scan pushed = some (S', .ready)) : S'.wp = S.wp := by
  unfold TM.considerNode at hc
  split at hc
  · simp at hc
  split at hc
  · simp at hc
  simp only at hc
  split at hc
  case isFalse => cases hc
  simp only [Option.some.injEq] at hc
  unfold judge at hc
  split at hc
  · simp at hc
  simp only at hc
  split at hc
  · simp at hc
  split at hc
  · simp at hc
  · simp only [Prod.mk.injEq, and_true] at hc; rw [← hc]; rfl

theorem Groups.consider {C : Cfg V} {tgt : V → Prop} (h : Groups C tgt) {S S' : St V} {alt pushed post : List V} {scan : Scan V}
    {fate : Fate} (hni : Lab.noIgnore (.consider alt scan pushed fate post))
    (hs : TM.step C S (.consider alt scan pushed fate post) = some S') :
    S.stopped = false ∧ ∃ S1 n, nextCandidate S alt = some (S1, n) ∧ Considered C tgt S S' alt scan pushed n fate := by
  simp only [TM.step] at hs
  split at hs
  · cases hs
  rename_i hst
  have hst' : S.stopped = false := by simpa using hst
  refine ⟨hst', ?_⟩
  split at hs
  · cases hs
  rename_i S1 n hnc
  refine ⟨S1, n, hnc, ?_⟩
  obtain ⟨g1, g2, -, -, -, -, -, -, g9, g10, -⟩ := nextCandidate_fields hnc
  split at hs
  · cases hs
  · rename_i S2 hcn
    simp only [Option.some.injEq] at hs
    subst hs
    refine .skip fate (by unfold returned; rw [if_neg hst, hnc]; simp [hcn]) ?_
    obtain ⟨f1, f2, f3, f4, f5⟩ := h.skip hcn
    rw [g1] at f3 f5; rw [g2] at f4; rw [g10] at f1; rw [g9] at f2
    exact ⟨f1, f2, f3, f4, f5⟩
  · rename_i S2 hcn
    split at hs
    case h_2 => cases hs
    rename_i m
    rw [Option.map_eq_some_iff] at hs
    obtain ⟨S3, hS3, rfl⟩ := hs
    have hret : returned C S alt scan pushed = none := by unfold returned; rw [if_neg hst, hnc]; simp [hcn]
    simp only [handOut] at hS3
    have hF := h.failTask (Lab.noIgnore_fate hni rfl) hS3
    unfold TM.considerNode at hcn
    split at hcn
    · simp at hcn
    rename_i hr
    split at hcn
    case h_2 =>
      simp only at hcn
      split at hcn
      case isFalse => cases hcn
      simp only [Option.some.injEq] at hcn
      unfold judge at hcn
      split at hcn
      · simp at hcn
      simp only at hcn
      split at hcn
      · simp at hcn
      · split at hcn <;> simp at hcn
    simp only [Option.some.injEq, Prod.mk.injEq, and_true] at hcn
    subst hcn
    refine .raised m hret rfl (by rw [g1] at hr; omega) ((failTask_fields hS3).2.2.1.trans g10) ⟨hF.self, fun x => ?_, fun hs p d hpd => ?_⟩
    · by_cases hx : x = n
      · subst hx; exact Or.inr (hF.self x (h.wf.self x))
      · rcases hF.state x with h1 | h1
        · left; rw [show ({ S3 with clock := S3.clock + 1 } : St V).state x = S3.state x from rfl, h1, ← g1]; simp [markPending, upd, hx]
        · exact Or.inr h1
    · exact hF.wp hs p d (by rw [← g2] at hpd; exact hpd)
  · rename_i S2 hcn
    rw [Option.map_eq_some_iff] at hs
    obtain ⟨S3, hS3, rfl⟩ := hs
    have hret : returned C S alt scan pushed = some n := by unfold returned; rw [if_neg hst, hnc]; simp [hcn]
    obtain ⟨kids, hk, hr, hst2, hdone, -⟩ := considerNode_ready hcn
    have hwp2 := considerNode_ready_wp hcn
    have hact2 := (considerNode_state hcn).1
    have hmi2 := considerNode_misc hcn
    have hs2 : ∀ x, x ≠ n → S2.state x = S.state x := by
      intro x hx; rw [hst2, ← g1]; simp [markPending, upd, hx]
    have hfail : ∀ {Sx m}, fate.failure = some m → Sx.wp = S2.wp → (∀ x, x ∉ C.targets n → Sx.state x = S2.state x) → Sx.active = S2.active →
        TM.failTask C Sx (C.targets n) m post = some S3 → Considered C tgt S { S3 with clock := S3.clock + 1 } alt scan pushed n fate := by
      intro Sx m hfm hwx hsx hax hf
      have hF := h.failTask (Lab.noIgnore_fate hni hfm) hf
      refine .failed fate m hfm hret ((failTask_fields hf).2.2.1.trans (hax.trans (hact2.trans g10))) ⟨hF.self, fun x => ?_, fun hs p d hpd => ?_⟩
      · by_cases hx : x ∈ C.targets n
        · exact Or.inr (hF.self x hx)
        · rcases hF.state x with h1 | h1
          · left; exact h1.trans ((hsx x hx).trans (hs2 x (fun e => hx (e ▸ h.wf.self n))))
          · exact Or.inr h1
      · exact hF.wp hs p d (by rw [hwx, hwp2, g2]; exact hpd)
    unfold handOut at hS3
    cases fate with
    | exc m => exact hfail rfl rfl (fun _ _ => rfl) rfl hS3
    | excReady b m =>
      refine hfail rfl ?_ ?_ ?_ hS3
      · exact (makeReady_fields C S2 (C.targets n) b).wp
      · intro x hx; cases b <;> simp [makeReady, updOn_apply, hx, h.ses]
      · exact (makeReady_fields C S2 (C.targets n) b).active
    | internal res =>
      cases res with
      | some m =>
        refine hfail rfl ?_ ?_ ?_ hS3
        · exact (makeReady_fields C S2 (C.targets n) false).wp
        · intro x hx; simp [makeReady, updOn_apply, hx, h.ses]
        · exact (makeReady_fields C S2 (C.targets n) false).active
      | none =>
        obtain ⟨p1, p2, p3, p4⟩ := h.postprocess hS3
        refine .current hret (p3.trans (hact2.trans g10)) (p2.trans (hmi2.2.1.trans g9)) (fun x => ?_) (fun c => ?_)
        · show S3.state x = _
          rw [p1, h.executed]
          by_cases hx : x ∈ C.targets n
          · simp [makeReady, updOn_apply, hx]
          · simp [makeReady, updOn_apply, hx, hs2 x (fun e => hx (e ▸ h.wf.self n))]
        · show S3.wp c = _
          rw [p4]; simp [TM.executed, makeReady, hwp2, g2]
    | start =>
      simp only [Option.some.injEq] at hS3
      subst hS3
      refine .start hret ?_ ?_ (fun x => ?_) (fun c => ?_)
      · show n :: S2.active = _; rw [hact2, g10]
      · exact hmi2.2.1.trans g9
      · by_cases hx : x ∈ C.targets n
        · simp [makeReady, updOn_apply, hx]
        · simp [makeReady, updOn_apply, hx, hs2 x (fun e => hx (e ▸ h.wf.self n)), h.ses]
      · simp [makeReady, hwp2, g2]

end Verif.TM
