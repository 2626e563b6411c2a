import Verif.TM.Props

/-! # C04 – C10, continued -/

set_option linter.unusedSectionVars false
set_option linter.unusedSimpArgs false
set_option linter.unusedVariables false

namespace Verif.TM
variable {V : Type} [DecidableEq V] [Fintype V]

/-! ## C04 -/

/-- A failing task in stop mode stops the walk. -/
theorem C04_failure_stops {C : Cfg V} {S S' : St V} {n : V} {post : List V}
    (h : step C S (.finish n (some .stop) post) = some S') : S'.stopped = true := by
  simp only [TM.step] at h
  split at h
  case isFalse => cases h
  rw [(failTask_fields h).2.2.2.2.1]; simp

theorem stopped_step {C : Cfg V} {S S' : St V} {l : Lab V} (hst : S.stopped = true) (h : step C S l = some S') :
    S'.stopped = true ∧ S'.started = S.started ∧ S'.active.Sublist S.active := by
  cases l with
  | consider alt scan pushed fate post => simp [TM.step, hst] at h
  | finish n res post =>
    simp only [TM.step] at h
    split at h
    case isFalse => cases h
    split at h
    · obtain ⟨e1, e2, e3, e4, e5, e6, e7⟩ := postprocess_failedTasks h
      exact ⟨by rw [e5]; exact hst, e2, by rw [e3]; exact List.erase_sublist⟩
    · obtain ⟨e1, e2, e3, e4, e5, e6, e7⟩ := failTask_fields h
      exact ⟨by rw [e5]; simp [hst], e2, by rw [e3]; exact List.erase_sublist⟩
  | flush =>
    simp only [TM.step, if_pos hst, Option.some.injEq] at h
    rw [← h]; exact ⟨hst, rfl, List.Sublist.refl _⟩
  | interrupt =>
    simp only [TM.step, Option.some.injEq] at h; rw [← h]; exact ⟨rfl, rfl, List.Sublist.refl _⟩

/-- **C04.** Once the walk was stopped (a failure without `-k`, or an interrupt), whatever happens afterwards — tasks
still running finish or fail in any order — the walk stays stopped, no target is started any more, and the set of
outstanding tasks only shrinks. -/
theorem C04_nothing_starts_after_stop {C : Cfg V} {P : St V → Lab V → Prop} {S S' : St V} (hst : S.stopped = true)
    (h : Steps C P S S') : S'.stopped = true ∧ S'.started = S.started ∧ S'.active.Sublist S.active :=
  Steps.inv (I := fun T => T.stopped = true ∧ T.started = S.started ∧ T.active.Sublist S.active)
    (fun _ _ _ hi _ hs => by
      obtain ⟨a, b, c⟩ := stopped_step hi.1 hs
      exact ⟨a, b.trans hi.2.1, c.trans hi.2.2⟩) h ⟨hst, rfl, List.Sublist.refl _⟩

/-- … in particular no later step is a start in the sense of `Starts`, and `next_task()` has no successor state: -/
theorem C04_no_start_step {C : Cfg V} {P : St V → Lab V → Prop} {S S1 S2 : St V} {l : Lab V} (hst : S.stopped = true)
    (h : Steps C P S S1) (hs : step C S1 l = some S2) (x : V) : ¬ Starts C S1 S2 x := by
  have h1 := (C04_nothing_starts_after_stop hst h).1
  have h2 := (stopped_step h1 hs).2.2
  rintro ⟨n, hn, _⟩
  rw [hn] at h2
  have := h2.length_le
  simp only [List.length_cons] at this
  omega

/-- The next call of `next_task()` after the stop empties the candidate list. -/
theorem C04_candidates_dropped {C : Cfg V} {S S' : St V} (h : step C S .flush = some S') : S'.cands = [] := by
  simp only [TM.step] at h
  split at h
  · simp only [Option.some.injEq] at h; rw [← h]; rfl
  · cases h

/-- **C04.** A failure of any kind (scan, `make_ready`, `prepare`, the action, `executed`) of a run without `-k`/`-i` stops the walk:
a reachable state in which some task failed is stopped. -/
theorem C04_any_failure_stops {C : Cfg V} {S S' : St V} {l : Lab V} (hl : l.stopOnly) (h : step C S l = some S')
    (hf : S'.failedTasks ≠ S.failedTasks) : S'.stopped = true := by
  cases l with
  | consider alt scan pushed fate post =>
    simp only [TM.step] at h
    split at h
    · cases h
    split at h
    · cases h
    rename_i S1 k hnc
    obtain ⟨g1, g2, g3, g4, g5, -⟩ := nextCandidate_fields hnc
    have hcs : ∀ {S2 o}, considerNode C S1 k scan pushed = some (S2, o) → S2.failedTasks = S.failedTasks := by
      intro S2 o hcn; rw [(considerNode_misc hcn).1, g5]
    have hho : ∀ {S2 S3 : St V} {fate}, (∀ m ∈ Fate.failure fate, m = .stop) → handOut C S2 k fate post = some S3 →
        S3.failedTasks ≠ S2.failedTasks → S3.stopped = true := by
      intro S2 S3 fate hm h2 hne
      cases fate with
      | exc m =>
        have := hm m rfl; subst this
        simp only [handOut] at h2; rw [(failTask_fields h2).2.2.2.2.1]; simp
      | excReady b m =>
        have := hm m rfl; subst this
        simp only [handOut] at h2; rw [(failTask_fields h2).2.2.2.2.1]; simp
      | internal r =>
        cases r with
        | some m =>
          have := hm m rfl; subst this
          simp only [handOut] at h2; rw [(failTask_fields h2).2.2.2.2.1]; simp
        | none => exact absurd ((postprocess_failedTasks h2).1.trans rfl) hne
      | start => simp only [handOut, Option.some.injEq] at h2; rw [← h2] at hne; exact absurd rfl hne
    split at h
    · cases h
    · rename_i S2 hcn
      simp only [Option.some.injEq] at h
      rw [← h] at hf; exact absurd (hcs hcn) hf
    · rename_i S2 hcn
      split at h
      · rw [Option.map_eq_some_iff] at h
        obtain ⟨S3, hS3, rfl⟩ := h
        have h9 : S3.stopped = true := hho hl hS3 (by rw [hcs hcn]; exact hf)
        exact h9
      · cases h
    · rename_i S2 hcn
      rw [Option.map_eq_some_iff] at h
      obtain ⟨S3, hS3, rfl⟩ := h
      have h9 : S3.stopped = true := hho hl hS3 (by rw [hcs hcn]; exact hf)
      exact h9
  | finish k res post =>
    simp only [TM.step] at h
    split at h
    case isFalse => cases h
    split at h
    · exact absurd (postprocess_failedTasks h).1 hf
    · rename_i m
      have := hl m rfl; subst this
      rw [(failTask_fields h).2.2.2.2.1]; simp
  | flush =>
    simp only [TM.step] at h
    split at h
    · simp only [Option.some.injEq] at h; rw [← h] at hf; exact absurd rfl hf
    · cases h
  | interrupt =>
    simp only [TM.step, Option.some.injEq] at h; rw [← h]

/-- … so a reachable state in which some task has failed is stopped. -/
theorem C04_failed_run_is_stopped {C : Cfg V} {orig : List V} {S : St V} (h : Reach C (fun _ l => l.stopOnly) orig S)
    (hf : S.failedTasks ≠ ∅) : S.stopped = true := by
  refine Steps.inv (I := fun S => S.failedTasks ≠ ∅ → S.stopped = true) ?_ h (fun h => absurd rfl h) hf
  intro S l S' hi hl hs hne
  by_cases he : S'.failedTasks = S.failedTasks
  · exact (stopped_step (hi (he ▸ hne)) hs).1
  · exact C04_any_failure_stops hl hs he

/-! ## C10, C05: completeness -/

/-- `x` is a target whose task failed, or depends, through dependencies reported by scans, on one. -/
def HitByFailure (S : St V) (x : V) : Prop := ∃ f ∈ S.failedTasks, Relation.ReflTransGen (DependsOn S) x f

theorem no_descent {S : St V} (ha : Acyclic S) (p : V → Prop) (hp : ∀ x, p x → ∃ y, DependsOn S x y ∧ p y) : ∀ x, ¬ p x := by
  have hwf : WellFounded (fun y x => Relation.TransGen (DependsOn S) x y) := by
    haveI : IsTrans V (fun y x => Relation.TransGen (DependsOn S) x y) := ⟨fun a b c h1 h2 => h2.trans h1⟩
    haveI : Std.Irrefl (fun y x => Relation.TransGen (DependsOn S) x y) := ⟨ha⟩
    exact Finite.wellFounded_of_trans_of_irrefl _
  intro x
  induction x using hwf.induction with
  | _ x ih =>
    intro hx
    obtain ⟨y, hxy, hy⟩ := hp x hx
    exact ih y (.single hxy) hy

/-- At the end of a walk that was not stopped, a pending node that no failure affects waits for another such node. -/
theorem pending_waits {C : Cfg V} {orig : List V} {S : St V} (hi : Inv C orig S) (hover : S.over) (hns : S.stopped = false)
    {x : V} (hx : S.state x = .pending) (hb : ¬ HitByFailure S x) :
    ∃ c, x ∈ S.wp c ∧ DependsOn S x c ∧ S.state c = .pending ∧ ¬ HitByFailure S c := by
  obtain ⟨hc, _, hact⟩ := hover
  rcases hi.pending hns x hx with h1 | ⟨c, h1⟩ | ⟨s, h1, h2⟩ | h1 | h1 | h1
  · rw [hc] at h1; simp at h1
  · have hdep : DependsOn S x c := hi.seen c x h1
    have hcb : ¬ HitByFailure S c := fun ⟨f, hf, hr⟩ => hb ⟨f, hf, Relation.ReflTransGen.head hdep hr⟩
    refine ⟨c, h1, hdep, ?_, hcb⟩
    have hcse : ¬ C.isSE c := hi.seenSE x c hdep
    cases hst : S.state c with
    | noState =>
      rcases hi.fresh hns c x h1 hst with h2 | h2
      · rw [hc] at h2; simp at h2
      · exact h2.elim
    | pending => rfl
    | executing =>
      rcases hi.exec c hcse hst with ⟨n, h2, _⟩ | h2
      · rw [hact] at h2; simp at h2
      · exact h2.elim
    | upToDate =>
      rcases hi.done c (by rw [hst]; trivial) with h2 | h2
      · rw [h2] at h1; simp at h1
      · exact h2.elim
    | executed =>
      rcases hi.done c (by rw [hst]; trivial) with h2 | h2
      · rw [h2] at h1; simp at h1
      · exact h2.elim
    | failed => exact absurd (hi.failed c hst) hcb
  · exfalso
    rcases h2 with h2 | ⟨t, ht, _⟩
    · rcases hi.execSE s (hi.wseSE s x h1) h2 with ⟨n, h3, _⟩ | h3 | ⟨t, ht, _⟩
      · rw [hact] at h3; simp at h3
      · rw [hns] at h3; cases h3
      · exact ht
    · exact ht
  · exact absurd h1 hb
  · exact h1.elim
  · exact h1.elim

theorem visited_done {C : Cfg V} {orig : List V} {S : St V} (hi : Inv C orig S) (hover : S.over) (hns : S.stopped = false)
    (ha : Acyclic S) {x : V} (hse : ¬ C.isSE x) (hx : S.state x ≠ .noState) (hb : ¬ HitByFailure S x) : (S.state x).done := by
  have hnp := no_descent ha (fun x => S.state x = .pending ∧ ¬ HitByFailure S x) (by
    rintro x ⟨h1, h2⟩
    obtain ⟨c, -, h3, h4, h5⟩ := pending_waits hi hover hns h1 h2
    exact ⟨c, h3, h4, h5⟩) x
  cases hst : S.state x with
  | noState => exact absurd hst hx
  | pending => exact absurd ⟨hst, hb⟩ hnp
  | executing =>
    rcases hi.exec x hse hst with ⟨n, h2, _⟩ | h2
    · rw [hover.2.2] at h2; simp at h2
    · exact h2.elim
  | upToDate => trivial
  | executed => trivial
  | failed => exact absurd (hi.failed x hst) hb

theorem Reach.binv {C : Cfg V} {orig : List V} {S : St V} (hp : Project C orig) (h : Reach C (PlainLab C) orig S) :
    Inv C orig S ∧ BInv C S S.clock (fun _ => False) :=
  Steps.inv (I := fun S => Inv C orig S ∧ BInv C S S.clock (fun _ => False))
    (fun S l S' hi hl hs => ⟨Inv.step hp.wf hp.iso hi.1 hl hs, BInv.step hp.wf hp.iso hi.1 hi.2 hl hs⟩) h
    ⟨Inv.init hp.top, BInv.init⟩

/-- **C10.** If the walk is over and was not stopped (`-k`, `-i`, or no failure) and the reported dependencies are
acyclic, then every requested target, and everything it transitively depends on, is up to date or executed unless it
is itself hit by a failure (is, or depends on, a target whose task failed). -/
theorem C10_keep_going_builds_the_rest {C : Cfg V} {orig : List V} {S : St V} (hp : Project C orig)
    (h : Reach C (PlainLab C) orig S) (hover : S.over) (hns : S.stopped = false) (ha : Acyclic S) {t x : V} (ht : t ∈ orig)
    (hx : Relation.ReflTransGen (DependsOn S) t x) (hb : ¬ HitByFailure S x) : (S.state x).done := by
  obtain ⟨hi, hB⟩ := Reach.binv hp h
  have : ¬ C.isSE x ∧ S.state x ≠ .noState := by
    rcases Relation.ReflTransGen.cases_tail hx with h1 | ⟨y, -, h1⟩
    · subst h1
      refine ⟨hi.origSE _ ht, ?_⟩
      rcases hi.top hns _ ht with h1 | h1 | h1 | h1
      · rw [(hover.2.1).resolve_right (by simp [hns])] at h1; simp at h1
      · rw [hover.1] at h1; simp at h1
      · exact h1
      · exact h1.elim
    · refine ⟨hi.seenSE y x h1, ?_⟩
      rcases hB.b4 hns y x h1 with h2 | h2 | h2
      · rw [hover.1] at h2; simp at h2
      · exact h2
      · exact h2.elim
  exact visited_done hi hover hns ha this.1 this.2 hb

/-- **C05.** A finished walk without failures over an acyclic graph has brought every requested target and all its
transitive dependencies up to date. -/
theorem C05_everything_requested_is_built {C : Cfg V} {orig : List V} {S : St V} (hp : Project C orig)
    (h : Reach C (PlainLab C) orig S) (hover : S.over) (hns : S.stopped = false) (hok : S.failedTasks = ∅) (ha : Acyclic S)
    {t x : V} (ht : t ∈ orig) (hx : Relation.ReflTransGen (DependsOn S) t x) : (S.state x).done :=
  C10_keep_going_builds_the_rest hp h hover hns ha ht hx (by rintro ⟨f, hf, _⟩; rw [hok] at hf; simp at hf)

/-! ## C06: no cycle is overlooked -/

/-- **C06.** If the walk is over, was not stopped, and some requested target was not brought up to date although no failure
affects it, then `cleanup()` raises its error, whatever `find_cycle` answers. -/
theorem C06_unbuilt_target_is_reported {C : Cfg V} {orig : List V} {S : St V} (hp : Project C orig)
    (h : Reach C (PlainLab C) orig S) (hover : S.over) (hns : S.stopped = false) (foundCycle : V → Bool) {t : V}
    (ht : t ∈ orig) (hnd : ¬ (S.state t).done) (hb : ¬ HitByFailure S t) : cleanupRaises S foundCycle := by
  obtain ⟨hi, hB⟩ := Reach.binv hp h
  by_contra hnr
  have hpend : ∀ c, S.state c = .pending → c ∉ S.pend := by
    intro c hc hcp; exact hnr ⟨c, hcp, Or.inr (by rw [hc]; simp)⟩
  -- a pending, unaffected node leads to another one born later
  have hup : ∀ k x, S.clock - S.born x ≤ k → S.state x = .pending → ¬ HitByFailure S x → False := by
    intro k
    induction k with
    | zero =>
      intro x hk hx hxb
      obtain ⟨c, h1, h2, h3, h4⟩ := pending_waits hi hover hns hx hxb
      have h5 := (hB.b2 c x h1 h3).resolve_left (hpend c h3)
      have h6 := hB.b1 c
      omega
    | succ k ih =>
      intro x hk hx hxb
      obtain ⟨c, h1, h2, h3, h4⟩ := pending_waits hi hover hns hx hxb
      have h5 := (hB.b2 c x h1 h3).resolve_left (hpend c h3)
      have h6 := hB.b1 c
      exact ih c (by omega) h3 h4
  have hpt : S.state t = .pending := by
    cases hst : S.state t with
    | noState =>
      rcases hi.top hns t ht with h1 | h1 | h1 | h1
      · rw [(hover.2.1).resolve_right (by simp [hns])] at h1; simp at h1
      · rw [hover.1] at h1; simp at h1
      · exact absurd hst h1
      · exact h1.elim
    | pending => rfl
    | executing =>
      rcases hi.exec t (hi.origSE t ht) hst with ⟨n, h2, _⟩ | h2
      · rw [hover.2.2] at h2; simp at h2
      · exact h2.elim
    | upToDate => rw [hst] at hnd; exact absurd trivial hnd
    | executed => rw [hst] at hnd; exact absurd trivial hnd
    | failed => exact absurd (hi.failed t hst) hb
  exact hup _ t (le_refl _) hpt hb

/-! ## C07: no false alarm -/

/-- Labels for C07: failures stop the build (no `-k`/`-i`); if there are side effects, no failures at all. -/
def StopLab (C : Cfg V) (_ : St V) (l : Lab V) : Prop :=
  l.noSE C ∧ l.stopOnly ∧ ((∀ s, ¬ C.isSE s) ∨ l.noFail)

/-- **C07 (partial).** In runs without `-k`/`-i` — completed, interrupted or stopped by failures — if the dependencies
reported are acyclic, then when the walk is over `cleanup()` does not raise: `pending_children` is empty.
Missing: `-k`, `-i` and failures combined with side effects; there the property is false, see
`C07_counterexample_keep_going`, `C07_counterexample_ignore`, `C07_counterexample_side_effect`. -/
theorem C07_no_false_cycle_report_partial {C : Cfg V} {orig : List V} {S : St V} (hp : Project C orig)
    (h : Reach C (StopLab C) orig S) (hover : S.over) (ha : Acyclic S) (foundCycle : V → Bool) :
    ¬ cleanupRaises S foundCycle := by
  obtain ⟨hi, hP⟩ : Inv C orig S ∧ PInv C S :=
    Steps.inv (I := fun S => Inv C orig S ∧ PInv C S)
      (fun S l S' hi hl hs => ⟨Inv.step hp.wf hp.iso hi.1 hl.1 hs, PInv.step hp.wf hp.iso hi.1 hi.2 hl.1 hl.2.1 hl.2.2 hs⟩) h
      ⟨Inv.init hp.top, PInv.init⟩
  obtain ⟨hc, _, hact⟩ := hover
  obtain ⟨w1, w2⟩ := hP.all hi
  -- a node that is waited for is pending, and waits for another node that is waited for
  have hcls : ∀ x, S.wp x ≠ ∅ → S.state x = .pending := by
    intro x hx
    have hnse : ¬ C.isSE x := fun h1 => hx (hi.seWp x h1)
    cases hst : S.state x with
    | noState => have := w2 x hx hst; rw [hc] at this; simp at this
    | pending => rfl
    | executing =>
      rcases hi.exec x hnse hst with ⟨n, h2, _⟩ | h2
      · rw [hact] at h2; simp at h2
      · exact h2.elim
    | upToDate => exact absurd ((hi.done x (by rw [hst]; trivial)).resolve_right id) hx
    | executed => exact absurd ((hi.done x (by rw [hst]; trivial)).resolve_right id) hx
    | failed => exact absurd (hP.fl x hst) hx
  have hnone := no_descent ha (fun x => S.wp x ≠ ∅) (by
    intro x hx
    rcases w1.toW x (hcls x hx) hx with h1 | ⟨c, h1⟩ | ⟨s, h1, h2⟩
    · rw [hc] at h1; simp at h1
    · exact ⟨c, hi.seen c x h1, Finset.nonempty_iff_ne_empty.1 ⟨x, h1⟩⟩
    · obtain ⟨n, h3, _⟩ := hP.se s (hi.wseSE s x h1) h2
      rw [hact] at h3; simp at h3)
  rintro ⟨n, hn, _⟩
  exact hnone n (hP.pd n hn).1

/-! ## C08: side effects -/

/-- Labels for C08. -/
def SELab (C : Cfg V) (_ : St V) (l : Lab V) : Prop := l.noSE C ∧ l.raiseStops

/-- **C08 (partial).** At any time, two different outstanding tasks have no side-effect file in common.
Missing: runs in which a side-effect file is itself requested or depended upon, or in which a scan raises and the build
goes on (`-k`/`-i`): there it is false, see `C08_counterexample_raise`.  `hA` holds unless an executor's action names
`$CHANGED_TARGETS`. -/
theorem C08_side_effects_exclusive_partial {C : Cfg V} {orig : List V} {S : St V} (hp : Project C orig)
    (hA : ∀ n, ∀ s ∈ C.ses (C.targets n), s ∈ C.ses (C.actTargets n))
    (h : Reach C (SELab C) orig S) {a b s : V} (ha : a ∈ S.active) (hb : b ∈ S.active) (hab : a ≠ b)
    (hsa : ∃ t ∈ C.targets a, s ∈ C.sideEffects t) (hsb : ∃ t ∈ C.targets b, s ∈ C.sideEffects t) : False := by
  obtain ⟨hi, hX⟩ : Inv C orig S ∧ SEX C S :=
    Steps.inv (I := fun S => Inv C orig S ∧ SEX C S)
      (fun S l S' hi hl hs => ⟨Inv.step hp.wf hp.iso hi.1 hl.1 hs, SEX.step hp.wf hp.iso hA hi.1 hi.2 hl.1 hl.2 hs⟩) h
      ⟨Inv.init hp.top, ⟨by simp [St.init], by simp [St.init]⟩⟩
  exact hX.disj a ha b hb hab s (ses_mem.2 hsa) (ses_mem.2 hsb)

/-! ## C09: termination -/

/-- One iteration of the loop of `_find_next_ready_node` that does not return a node. -/
def SearchStep (C : Cfg V) (S S' : St V) : Prop :=
  ∃ alt scan pushed S1 n, nextCandidate S alt = some (S1, n) ∧ considerNode C S1 n scan pushed = some (S', .skip)

/-- measure: requested targets left, unvisited nodes, candidates already visited -/
def searchMeasure (S : St V) : Nat ×ₗ (Nat ×ₗ Nat) :=
  toLex (S.tops.length, toLex ((Finset.univ.filter (fun x => S.state x = .noState)).card,
    (S.cands.filter (fun x => S.state x ≠ .noState)).length))

theorem searchMeasure_lt {S T : St V} (h1 : T.tops.length ≤ S.tops.length)
    (h2 : T.tops.length = S.tops.length → ∀ x, T.state x = .noState → S.state x = .noState)
    (h3 : T.tops.length = S.tops.length → (∀ x, T.state x = .noState ↔ S.state x = .noState) →
      (T.cands.filter (fun x => T.state x ≠ .noState)).length < (S.cands.filter (fun x => S.state x ≠ .noState)).length) :
    searchMeasure T < searchMeasure S := by
  unfold searchMeasure
  rw [Prod.Lex.lt_iff]
  simp only [ofLex_toLex]
  rcases Nat.lt_or_eq_of_le h1 with h4 | h4
  · exact Or.inl h4
  · refine Or.inr ⟨h4, ?_⟩
    rw [Prod.Lex.lt_iff]
    simp only [ofLex_toLex]
    have hsub : Finset.univ.filter (fun x => T.state x = .noState) ⊆ Finset.univ.filter (fun x => S.state x = .noState) := by
      intro x hx; exact Finset.mem_filter.2 ⟨Finset.mem_univ _, h2 h4 x (Finset.mem_filter.1 hx).2⟩
    by_cases he : Finset.univ.filter (fun x => T.state x = .noState) = Finset.univ.filter (fun x => S.state x = .noState)
    · refine Or.inr ⟨by rw [he], h3 h4 (fun x => ?_)⟩
      have := Finset.ext_iff.1 he x
      simpa using this
    · exact Or.inl (Finset.card_lt_card (Finset.ssubset_iff_subset_ne.2 ⟨hsub, he⟩))

theorem considerNode_noState {C : Cfg V} {S S' : St V} {n : V} {scan : Scan V} {pushed : List V} {o : Outcome}
    (hc : considerNode C S n scan pushed = some (S', o)) :
    S'.tops = S.tops ∧ (∀ x, S'.state x = .noState → S.state x = .noState) ∧ S'.state n ≠ .noState ∧
    ∃ new, S'.cands = new ++ S.cands ∧ ∀ x ∈ new, S.state x = .noState ∧ x ≠ n := by
  unfold considerNode at hc
  split at hc
  · rename_i hr
    simp only [Option.some.injEq, Prod.mk.injEq] at hc; rw [← hc.1]
    refine ⟨rfl, fun _ h => h, ?_, [], rfl, by simp⟩
    intro h; rw [h] at hr; simp [NState.rank] at hr
  · have hm : ∀ x, (markPending S n).state x = .noState → S.state x = .noState ∧ x ≠ n := by
      intro x hx; simp only [markPending, upd] at hx; split at hx
      · cases hx
      · exact ⟨hx, by assumption⟩
    have hmn : (markPending S n).state n = .pending := by simp [markPending]
    split at hc
    · simp only [Option.some.injEq, Prod.mk.injEq] at hc; rw [← hc.1]
      exact ⟨rfl, fun x hx => (hm x hx).1, by rw [hmn]; simp, [], rfl, by simp⟩
    · rename_i kids
      simp only at hc
      split at hc
      · rename_i hpush
        simp only [Option.some.injEq] at hc
        have h3 := congrArg Prod.fst hc
        simp only at h3
        have hnew : ∀ x ∈ pushed.reverse, S.state x = .noState ∧ x ≠ n := by
          intro x hx
          have : x ∈ pushed.toFinset := by simpa using hx
          rw [hpush] at this
          simp only [List.mem_toFinset, List.mem_filter, decide_eq_true_eq] at this
          exact hm x this.2
        rw [← h3]
        unfold judge
        split
        · refine ⟨rfl, ?_, ?_, pushed.reverse, rfl, hnew⟩
          · intro x hx; simp only [updOn_apply] at hx; split at hx
            · cases hx
            · exact (hm x hx).1
          · intro hx; simp only [updOn_apply] at hx; split at hx
            · cases hx
            · rw [show (pushKids C (markPending S n) n (C.prereqs n ++ kids) pushed).state n = .pending from hmn] at hx; cases hx
        · simp only
          split
          · obtain ⟨f1, f2, f3, f4, -⟩ :=
              addWaiting_fields n ((C.prereqs n ++ kids).filter (fun c => ((pushKids C (markPending S n) n (C.prereqs n ++ kids) pushed).state c).rank ≤ 2))
                (pushKids C (markPending S n) n (C.prereqs n ++ kids) pushed)
            refine ⟨f4, ?_, ?_, pushed.reverse, f3, hnew⟩
            · intro x hx; simp only [f1] at hx; exact (hm x hx).1
            · simp only [f1]; rw [show (pushKids C (markPending S n) n (C.prereqs n ++ kids) pushed).state n = .pending from hmn]; simp
          · have hp : (pushKids C (markPending S n) n (C.prereqs n ++ kids) pushed).state n ≠ .noState := by
              rw [show (pushKids C (markPending S n) n (C.prereqs n ++ kids) pushed).state n = .pending from hmn]; simp
            split
            · exact ⟨rfl, fun x hx => (hm x hx).1, hp, pushed.reverse, rfl, hnew⟩
            · exact ⟨rfl, fun x hx => (hm x hx).1, hp, pushed.reverse, rfl, hnew⟩
      · cases hc

/-- **C09.** The search for the next task cannot go on for ever: there is no infinite sequence of iterations of
the loop none of which returns a node — on any graph, cyclic or not, from any state, whatever each scan answers. -/
theorem C09_search_terminates (C : Cfg V) : WellFounded (fun S' S : St V => SearchStep C S S') := by
  refine Subrelation.wf (r := InvImage (· < ·) searchMeasure) ?_ (InvImage.wf searchMeasure wellFounded_lt)
  rintro S' S ⟨alt, scan, pushed, S1, n, hnc, hcn⟩
  show searchMeasure S' < searchMeasure S
  obtain ⟨c1, c2, c3, new, c4, c5⟩ := considerNode_noState hcn
  obtain ⟨g1, -⟩ := nextCandidate_fields hnc
  unfold nextCandidate at hnc
  split at hnc
  · rename_i k rest hcands
    simp only [Option.some.injEq, Prod.mk.injEq] at hnc
    obtain ⟨e1, e2⟩ := hnc
    have htops : S1.tops = S.tops := by rw [← e1]
    refine searchMeasure_lt (by rw [c1, htops]) (fun _ x hx => by rw [← g1]; exact c2 x hx) ?_
    intro _ hiff
    have hcd : S1.cands = rest := by rw [← e1]
    have hnn : S.state n ≠ .noState := fun h => c3 ((hiff n).2 h)
    rw [c4, hcd, hcands, e2]
    have hfe : ∀ x : V, (decide (S'.state x ≠ .noState)) = decide (S.state x ≠ .noState) := by
      intro x; simp only [decide_eq_decide]; rw [ne_eq, ne_eq, hiff]
    simp only [hfe]
    rw [List.filter_append]
    have : new.filter (fun x => decide (S.state x ≠ .noState)) = [] := by
      rw [List.filter_eq_nil_iff]; intro x hx
      have := (c5 x hx).1; rw [g1] at this; simp [this]
    rw [this, List.nil_append, List.filter_cons_of_pos (by simpa using hnn)]
    simp
  · split at hnc
    · cases hnc
    · rename_i t ts htops
      simp only at hnc
      split at hnc
      · simp only [Option.some.injEq, Prod.mk.injEq] at hnc
        have h1 : S1.tops = ts := by rw [← hnc.1]
        refine searchMeasure_lt ?_ ?_ ?_
        · rw [c1, h1, htops]; simp
        · intro h; rw [c1, h1, htops] at h; simp at h
        · intro h; rw [c1, h1, htops] at h; simp at h
      · cases hnc

end Verif.TM
