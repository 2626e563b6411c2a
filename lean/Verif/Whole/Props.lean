import Verif.Whole.Model

/-!
# C46: a parallel build ends, and ends with the right contents
-/

set_option linter.unusedSectionVars false

namespace Verif.Whole

open Verif.Build Verif.Pool

variable {V B K A : Type} [DecidableEq V] [DecidableEq K] [Fintype V]

/-! ## Actions in progress -/

/-- The actions in progress are those of the targets of outstanding tasks, and each has seen the files at least once. -/
structure Wk (D : Desc V B A) (C : TM.Cfg V) (X : CSt V B K A) : Prop where
  tgt : ∀ n ∈ X.T.active, ∀ v ∈ C.targets n, (D v).isSome
  run : ∀ v, (X.S.running v).isSome ↔ ∃ n ∈ X.T.active, v ∈ C.targets n
  log : ∀ v r, X.S.running v = some r → r.log ≠ []

theorem write_running (S : St V B K A) (t v : V) (b : Option B) :
    ((S.write t b).running v).isSome = (S.running v).isSome := by
  simp [St.write]

theorem write_log {S : St V B K A} {t v : V} {b : Option B} {r : Run V B A} (h : (S.write t b).running v = some r) : r.log ≠ [] := by
  simp only [St.write, Option.map_eq_some_iff] at h
  obtain ⟨r0, -, rfl⟩ := h
  simp

/-- Every action in progress has seen the files. -/
def Logged (S : St V B K A) : Prop := ∀ v r, S.running v = some r → r.log ≠ []

theorem Logged.startAll {lf : V → Leaf V A} {ts : List V} : ∀ {S : St V B K A}, Logged S → Logged (S.startAll lf ts) := by
  induction ts with
  | nil => intro S h; exact h
  | cons t ts ih =>
    intro S h
    refine ih (S := S.effStart t (lf t)) fun v r hr => ?_
    simp only [St.effStart] at hr
    split at hr
    · simp only [Option.some.injEq] at hr; rw [← hr]; simp
    · exact write_log hr

theorem Logged.failAll {left : V → Option B} {ts : List V} : ∀ {S : St V B K A}, Logged S → Logged (S.failAll left ts) := by
  induction ts with
  | nil => intro S h; exact h
  | cons t ts ih =>
    intro S h
    refine ih (S := S.effFail t (left t)) fun v r hr => ?_
    simp only [St.effFail] at hr
    split at hr
    · cases hr
    · exact write_log hr

theorem Logged.finishAll {M : Sem B K A} {ex : V → Bool} {rs : V → Run V B A} {views : V → V → Option B} {ts : List V} :
    ∀ {S : St V B K A}, Logged S → Logged (S.finishAll M ex rs views ts) := by
  induction ts with
  | nil => intro S h; exact h
  | cons t ts ih =>
    intro S h
    by_cases he : ex t = true
    · have e : S.finishAll M ex rs views (t :: ts) = (S.effFinish M t (rs t) (views t)).finishAll M ex rs views ts := by simp [St.finishAll, he]
      rw [e]
      refine ih fun v r hr => ?_
      simp only [St.effFinish] at hr
      split at hr
      · cases hr
      · exact write_log hr
    · have e : S.finishAll M ex rs views (t :: ts) = (S.effFail t (some ((rs t).output M (views t)))).finishAll M ex rs views ts := by simp [St.finishAll, he]
      rw [e]
      refine ih fun v r hr => ?_
      simp only [St.effFail] at hr
      split at hr
      · cases hr
      · exact write_log hr

theorem Wk.write {D : Desc V B A} {C : TM.Cfg V} {X : CSt V B K A} (h : Wk D C X) (t : V) (b : Option B) : Wk D C { X with S := X.S.write t b } :=
  ⟨h.tgt, fun v => by show ((X.S.write t b).running v).isSome = true ↔ _; rw [write_running]; exact h.run v, fun v r hr => write_log hr⟩

theorem active_past {C : TM.Cfg V} {orig : List V} {T : TM.St V} (hi : TM.Inv C orig T) {n t : V}
    (hn : n ∈ T.active) (ht : t ∈ C.targets n) : 1 < (T.state t).rank :=
  hi.started t (hi.startedRest.act n hn t ht)

/-- after the task of `n` has ended, exactly the targets of the other tasks are being made -/
theorem retired_run {C : TM.Cfg V} {tgt : V → Prop} (hC : TM.Groups C tgt) {orig : List V} {T : TM.St V} (hi : TM.Inv C orig T) {n v : V} (hn : n ∈ T.active) :
    (v ∉ C.targets n ∧ ∃ m ∈ T.active, v ∈ C.targets m) ↔ ∃ m ∈ T.active.erase n, v ∈ C.targets m := by
  have hnodup := hi.startedRest.actNodup
  constructor
  · rintro ⟨h1, m, h2, h3⟩
    exact ⟨m, (List.mem_erase_of_ne (by rintro rfl; exact h1 h3)).2 h2, h3⟩
  · rintro ⟨m, h2, h3⟩
    refine ⟨fun h4 => ?_, m, List.mem_of_mem_erase h2, h3⟩
    have hmn : m ∈ C.targets n := by
      rw [← hC.wf.peers n v h4, hC.wf.peers m v h3]; exact hC.wf.self m
    have := hi.startedRest.actPeer n hn m (List.mem_of_mem_erase h2) hmn
    subst this
    exact hnodup.not_mem_erase h2

theorem Wk.step {M : Sem B K A} {D : Desc V B A} {C : TM.Cfg V} {tgt : V → Prop} (hC : TM.Groups C tgt) {orig : List V}
    {X X' : CSt V B K A} {l : TM.Lab V} (h : Wk D C X) (hi : TM.Inv C orig X.T) (hl : l.noIgnore) (hs : CStep M D C X l X') : Wk D C X' := by
  have keep : ∀ {T' : TM.St V} {S' : St V B K A} {memo'}, T'.active = X.T.active → S'.running = X.S.running → Wk D C ⟨T', S', memo'⟩ := by
    intro T' S' memo' ha hr
    exact ⟨fun n hn => h.tgt n (ha ▸ hn), fun v => by simp only [ha, hr]; exact h.run v, fun v r hv => h.log v r (by rw [← hr]; exact hv)⟩
  have hleaf : ∀ {n l}, X.leafOf D n = some l → (D n).isSome := by
    intro n l hl
    cases hd : D n with
    | none => simp [CSt.leafOf, hd] at hl
    | some sc => rfl
  cases hs with
  | @walk T' T1 alt scan pushed fate post n hstep hnc hok hret =>
    obtain ⟨-, S1, n', hnc', hcd⟩ := hC.consider hl hstep
    refine keep ?_ rfl
    cases hcd with
    | skip _ _ hf => exact hf.active
    | raised _ _ _ _ ha _ => exact ha
    | failed _ _ _ hr => rw [hr] at hret; cases hret
    | current hr => rw [hr] at hret; cases hret
    | start hr => rw [hr] at hret; cases hret
  | @source T' alt scan pushed post n hstep hok hret hD =>
    obtain ⟨-, S1, n', hnc', hcd⟩ := hC.consider hl hstep
    refine keep ?_ rfl
    cases hcd with
    | skip _ hr => rw [hr] at hret; cases hret
    | failed _ _ hf => cases hf
    | current _ ha => exact ha
  | @current T' alt scan pushed post n lf hstep hok hret hlf hu =>
    obtain ⟨-, S1, n', hnc', hcd⟩ := hC.consider hl hstep
    refine keep ?_ ?_
    · cases hcd with
      | skip _ hr => rw [hr] at hret; cases hret
      | failed _ _ hf => cases hf
      | current _ ha => exact ha
    · exact (currentAll_fields M lf (C.targets n) _).2.2.2.2.1.trans (checkAll_fields M lf (C.targets n) X.S).2.2.2.2.1
  | @start T' alt scan pushed post n lf hstep hok hret hlf hu =>
    obtain ⟨-, S1, n', hnc', hcd⟩ := hC.consider hl hstep
    have : T'.active = n :: X.T.active := by
      cases hcd with
      | skip _ hr => rw [hr] at hret; cases hret
      | failed _ _ hf => cases hf
      | start hr ha => rw [hr] at hret; cases hret; exact ha
    have c5 := (checkAll_fields M lf (C.targets n) X.S).2.2.2.2.1
    refine ⟨fun m => ?_, fun v => ?_, ?_⟩
    · rw [this, List.mem_cons]
      rintro (rfl | hm) v hv
      · exact hleaf (hlf v hv)
      · exact h.tgt m hm v hv
    · simp only [this, (startAll_fields lf (C.targets n) _).2.2.2.2.1, c5, h.run, List.mem_cons]
      constructor
      · rintro (e | ⟨m, e1, e2⟩)
        · exact ⟨n, Or.inl rfl, e⟩
        · exact ⟨m, Or.inr e1, e2⟩
      · rintro ⟨m, rfl | e1, e2⟩
        · exact Or.inl e2
        · exact Or.inr ⟨m, e1, e2⟩
    · exact Logged.startAll (fun v r hr => h.log v r (by rw [← c5]; exact hr))
  | @early T' alt scan pushed fate m post n hstep hok hf hret =>
    obtain ⟨-, S1, n', hnc', hcd⟩ := hC.consider hl hstep
    refine keep ?_ rfl
    cases hcd with
    | skip _ hr => rw [hr] at hret; cases hret
    | raised _ hr => rw [hr] at hret; cases hret
    | failed _ _ _ _ ha => exact ha
    | current => cases hf
    | start => cases hf
  | @removed T' alt scan pushed m post n lf gone hstep hok hret hlf hu hgone =>
    obtain ⟨-, S1, n', hnc', hcd⟩ := hC.consider hl hstep
    have : T'.active = X.T.active := by
      cases hcd with
      | skip _ hr => rw [hr] at hret; cases hret
      | failed _ _ _ _ ha => exact ha
    have c5 := (checkAll_fields M lf (C.targets n) X.S).2.2.2.2.1
    have hna : ∀ v ∈ gone, ¬ ∃ m ∈ X.T.active, v ∈ C.targets m := by
      rintro v hv ⟨m, hm, hvm⟩
      have hnm : n ∈ C.targets m := by
        rw [← hC.wf.peers m v hvm, hC.wf.peers n v (hgone.subset hv)]; exact hC.wf.self n
      have := active_past hi hm hnm
      have := (returned_facts hret).2.1
      omega
    refine ⟨fun m hm => h.tgt m (this ▸ hm), fun v => ?_, ?_⟩
    · simp only [this, (failAll_fields (fun _ => none) gone _).2.2.2.2.1, (startAll_fields lf gone _).2.2.2.2.1, c5, h.run]
      constructor
      · rintro ⟨h1, h2 | h2⟩
        · exact absurd h2 h1
        · exact h2
      · exact fun hv => ⟨fun hg => hna v hg hv, Or.inr hv⟩
    · exact Logged.failAll (Logged.startAll (fun v r hr => h.log v r (by rw [← c5]; exact hr)))
  | @finish T' n post rs views hstep hrun =>
    obtain ⟨hn, ha⟩ := finish_active hstep
    refine ⟨fun m hm => h.tgt m (List.mem_of_mem_erase (ha ▸ hm)), fun v => ?_, Logged.finishAll h.log⟩
    simp only [(finishAll_fields M (fun t => decide (X.T.state t = .executing)) rs views (C.targets n) X.S).2.2.2.1, ha, h.run]
    exact retired_run hC hi hn
  | @fail T' n m post left hstep =>
    obtain ⟨hn, ha⟩ := finish_active hstep
    refine ⟨fun m hm => h.tgt m (List.mem_of_mem_erase (ha ▸ hm)), fun v => ?_, Logged.failAll h.log⟩
    simp only [(failAll_fields left (C.targets n) X.S).2.2.2.2.1, ha, h.run]
    exact retired_run hC hi hn
  | @flush T' hstep =>
    refine keep ?_ rfl
    simp only [TM.step] at hstep
    split at hstep
    · simp only [Option.some.injEq] at hstep; rw [← hstep]; rfl
    · cases hstep
  | interrupt hstep =>
    simp only [TM.step, Option.some.injEq] at hstep
    exact keep (by rw [← hstep]) rfl

theorem CSteps.wk {M : Sem B K A} {D : Desc V B A} {C : TM.Cfg V} {tgt : V → Prop} (hC : TM.Groups C tgt) {orig : List V}
    {P : CSt V B K A → TM.Lab V → CSt V B K A → Prop} (hP : ∀ X l X', P X l X' → l.noIgnore) {S : St V B K A} (hrun : ∀ v, S.running v = none)
    {X : CSt V B K A} (h : CSteps M D C P (CSt.init orig S) X) : Wk D C X ∧ TM.Inv C orig X.T := by
  generalize hX0 : CSt.init orig S = X0 at h
  induction h with
  | refl =>
    subst hX0
    refine ⟨⟨fun n hn => by simp [CSt.init, TM.St.init] at hn, fun v => ?_, fun v r hr => ?_⟩, TM.Inv.init (hC.project orig).top⟩
    · simp [CSt.init, TM.St.init, hrun]
    · simp [CSt.init, hrun] at hr
  | tail l _ hp hs ih =>
    obtain ⟨h1, h2⟩ := ih
    exact ⟨h1.step hC h2 (hP _ _ _ hp) hs, TM.Inv.step (hC.project orig).wf (hC.project orig).iso h2 (hC.noSELab l) hs.tm⟩
  | scribble t b _ hr ih =>
    obtain ⟨h1, h2⟩ := ih
    exact ⟨h1.write t b, h2⟩

/-! ## No deadlock -/

theorem returned_ready {C : TM.Cfg V} {T S1 S2 : TM.St V} {alt : List V} {scan : TM.Scan V} {pushed : List V} {n : V} (hst : ¬ T.stopped = true)
    (hnc : TM.nextCandidate T alt = some (S1, n)) (hcn : TM.considerNode C S1 n scan pushed = some (S2, .ready)) :
    TM.returned C T alt scan pushed = some n := by
  unfold TM.returned; rw [if_neg hst, hnc]; simp [hcn]

theorem returned_skip {C : TM.Cfg V} {T S1 S2 : TM.St V} {alt : List V} {scan : TM.Scan V} {pushed : List V} {n : V} (hst : ¬ T.stopped = true)
    (hnc : TM.nextCandidate T alt = some (S1, n)) (hcn : TM.considerNode C S1 n scan pushed = some (S2, .skip)) :
    TM.returned C T alt scan pushed = none := by
  unfold TM.returned; rw [if_neg hst, hnc]; simp [hcn]

theorem judge_not_raised (C : TM.Cfg V) (S : TM.St V) (n : V) (all : List V) : (TM.judge C S n all).2 ≠ .raised := by
  unfold TM.judge
  split
  · simp
  · simp only; split
    · simp
    · split <;> simp

theorem considerNode_ok {C : TM.Cfg V} {S : TM.St V} {n : V} (kids : List V) :
    ∃ pushed S2 o, TM.considerNode C S n (.ok kids) pushed = some (S2, o) ∧ o ≠ .raised := by
  refine ⟨(C.prereqs n ++ kids).filter (fun c => (TM.markPending S n).state c = .noState), ?_⟩
  unfold TM.considerNode
  split
  · exact ⟨_, _, rfl, by simp⟩
  · simp only [if_true]
    exact ⟨_, _, rfl, judge_not_raised C _ n _⟩

/-- Steps without failures and interrupts. -/
def Smooth (X : CSt V B K A) (l : TM.Lab V) (_ : CSt V B K A) : Prop := l.noFail ∧ l.progress X.T ∧ l ≠ .interrupt

/-- The taskmaster can always answer `next_task()`, without anything failing. -/
theorem next_possible {M : Sem B K A} {D : Desc V B A} {C : TM.Cfg V} (hC : TM.Groups C (fun n => (D n).isSome)) (X : CSt V B K A) :
    (∃ X', (wtmi M D C Smooth).internal X X') ∨ (∃ n X', (wtmi M D C Smooth).give X n X') ∨ (∃ X', (wtmi M D C Smooth).empty X X') := by
  by_cases hst : X.T.stopped = true
  · by_cases hc : X.T.cands = []
    · exact Or.inr (Or.inr ⟨X, rfl, hc, Or.inr hst⟩)
    · left
      have hf : TM.step C X.T .flush = some { TM.willNotBuild { X.T with cands := [] } X.T.cands.toFinset false with
          clock := X.T.clock + 1 } := by simp only [TM.step, if_pos hst]
      exact ⟨_, .flush, ⟨trivial, hc, by simp⟩, trivial, .flush hf, rfl⟩
  · by_cases hc : X.T.cands = [] ∧ X.T.tops = []
    · exact Or.inr (Or.inr ⟨X, rfl, hc.1, Or.inl hc.2⟩)
    · obtain ⟨S1, n, hnc⟩ : ∃ S1 n, TM.nextCandidate X.T [] = some (S1, n) := by
        unfold TM.nextCandidate
        cases h1 : X.T.cands with
        | cons a l => exact ⟨_, _, rfl⟩
        | nil =>
          cases h2 : X.T.tops with
          | nil => exact absurd ⟨h1, h2⟩ hc
          | cons t ts => exact ⟨_, _, rfl⟩
      have ha : S1.active = X.T.active := TM.nextCandidate_active hnc
      obtain ⟨pushed, S2, o, hcn, ho⟩ := considerNode_ok (C := C) (S := S1) (n := n) (X.kidsOf D C n)
      have ha2 : S2.active = X.T.active := (TM.considerNode_active hcn).1.trans ha
      have hok : X.scanOK D C n (.ok (X.kidsOf D C n)) := Or.inr rfl
      cases o with
      | raised => exact absurd rfl ho
      | skip =>
        left
        have hret := returned_skip hst hnc hcn
        have hf : TM.step C X.T (.consider [] (.ok (X.kidsOf D C n)) pushed .start []) = some { S2 with clock := S2.clock + 1 } := by
          simp only [TM.step, if_neg hst, hnc, hcn]
        exact ⟨_, .consider [] (.ok (X.kidsOf D C n)) pushed .start [], ⟨⟨by simp, rfl⟩, trivial, by simp⟩, trivial, .walk hf hnc hok hret, ha2⟩
      | ready =>
        have hret := returned_ready hst hnc hcn
        have internal : ∃ post T', TM.step C X.T (.consider [] (.ok (X.kidsOf D C n)) pushed (.internal none) post) = some T' ∧ T'.active = X.T.active := by
          obtain ⟨post, S3, h3⟩ := postprocess_possible C (TM.executed C (TM.makeReady C S2 (C.targets n) false) (C.targets n)) (C.targets n)
          refine ⟨post, { S3 with clock := S3.clock + 1 }, ?_, ?_⟩
          · simp only [TM.step, if_neg hst, hnc, hcn, TM.handOut, h3]; rfl
          · show S3.active = _
            rw [(TM.postprocess_failedTasks h3).2.2.1]; exact ha2
        cases hD : D n with
        | none =>
          left
          obtain ⟨post, T', hf, ha3⟩ := internal
          exact ⟨_, .consider [] (.ok (X.kidsOf D C n)) pushed (.internal none) post, ⟨⟨by simp, rfl⟩, trivial, by simp⟩, trivial, .source hf hok hret hD, ha3⟩
        | some sc =>
          obtain ⟨l, hl⟩ : ∃ l, X.leafOf D n = some l := by simp [CSt.leafOf, hD]
          obtain ⟨lf, hl⟩ : ∃ lf, X.leaves D (C.targets n) lf := by
            refine ⟨fun t => (X.leafOf D t).getD l, fun t ht => ?_⟩
            have : (D t).isSome = true := hC.all n (by rw [hD]; rfl) t ht
            obtain ⟨sc', hsc'⟩ := Option.isSome_iff_exists.1 this
            simp [CSt.leafOf, hsc']
          cases hu : (X.S.checkAll M lf (C.targets n)).2 with
          | true =>
            left
            obtain ⟨post, T', hf, ha3⟩ := internal
            exact ⟨_, .consider [] (.ok (X.kidsOf D C n)) pushed (.internal none) post, ⟨⟨by simp, rfl⟩, trivial, by simp⟩, trivial, .current hf hok hret hl hu, ha3⟩
          | false =>
            right; left
            have hf : ∃ T', TM.step C X.T (.consider [] (.ok (X.kidsOf D C n)) pushed .start []) = some T' ∧ T'.active = n :: X.T.active := by
              refine ⟨{ { TM.makeReady C S2 (C.targets n) true with active := n :: (TM.makeReady C S2 (C.targets n) true).active, started := C.targets n ++ (TM.makeReady C S2 (C.targets n) true).started } with clock := S2.clock + 1 }, ?_, ?_⟩
              · simp only [TM.step, if_neg hst, hnc, hcn, TM.handOut]; rfl
              · show n :: S2.active = _
                rw [ha2]
            obtain ⟨T', hf, ha3⟩ := hf
            exact ⟨n, _, .consider [] (.ok (X.kidsOf D C n)) pushed .start [], ⟨⟨by simp, rfl⟩, trivial, by simp⟩, trivial, .start hf hok hret hl hu, ha3⟩

/-- A task whose action succeeded can be retired. -/
theorem retire_possible {M : Sem B K A} {D : Desc V B A} {C : TM.Cfg V} {X : CSt V B K A} (hself : ∀ n, n ∈ C.targets n) (hw : Wk D C X) {n : V} (hn : n ∈ X.T.active) :
    ∃ X', (wtmi M D C Smooth).retire X n true X' := by
  obtain ⟨r0, -⟩ := Option.isSome_iff_exists.1 ((hw.run n).2 ⟨n, hn, hself n⟩)
  have hr : ∀ t ∈ C.targets n, X.S.running t = some ((X.S.running t).getD r0) := by
    intro t ht
    obtain ⟨r, hr⟩ := Option.isSome_iff_exists.1 ((hw.run t).2 ⟨n, hn, ht⟩)
    rw [hr]; rfl
  have hv : ∀ t, ∃ view : V → Option B, t ∈ C.targets n → ((X.S.running t).getD r0).sees view := by
    intro t
    by_cases ht : t ∈ C.targets n
    · obtain ⟨snap, hsnap⟩ := List.exists_mem_of_ne_nil _ (hw.log t _ (hr t ht))
      exact ⟨snap, fun _ c _ => ⟨snap, hsnap, rfl⟩⟩
    · exact ⟨fun _ => none, fun h => absurd h ht⟩
  obtain ⟨views, hviews⟩ := Classical.skolem.1 hv
  obtain ⟨post, T', h1⟩ := postprocess_possible C (TM.executed C { X.T with active := X.T.active.erase n, clock := X.T.clock + 1 } (C.targets n)) (C.targets n)
  have hf : TM.step C X.T (.finish n none post) = some T' := by simp only [TM.step, if_pos hn]; exact h1
  exact ⟨_, none, post, ⟨rfl, trivial, by simp⟩, by simp, .finish hf (fun t ht => ⟨hr t ht, hviews t ht⟩)⟩

/-- A task whose action failed can be retired. -/
theorem fail_possible {M : Sem B K A} {D : Desc V B A} {C : TM.Cfg V} {X : CSt V B K A} {n : V} (hn : n ∈ X.T.active) :
    ∃ X', (wtmi M D C Real).retire X n false X' := by
  obtain ⟨post, T', h1⟩ := failTask_possible C { X.T with active := X.T.active.erase n, clock := X.T.clock + 1 } (C.targets n) .stop
  have hf : TM.step C X.T (.finish n (some .stop) post) = some T' := by simp only [TM.step, if_pos hn]; exact h1
  exact ⟨_, some .stop, post, ⟨trivial, trivial⟩, by simp, .fail (left := fun _ => none) hf⟩

end Verif.Whole
