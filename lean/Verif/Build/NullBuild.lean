import Verif.Build.Compose

/-!
# C16 for whole runs: a second run right after the first does nothing
-/

set_option linter.unusedSectionVars false
set_option linter.unusedSimpArgs false
set_option linter.unusedVariables false

namespace Verif.Build

open Verif.Sig

variable {V B K A : Type} [DecidableEq V] [DecidableEq K]

/-! ## What a run leaves behind for every node it has finished -/

/-- The stored information about `t` describes the present files. -/
def Settled (M : Sem B K A) (D : Desc V B A) (fs : Files V B) (db : V → BInfo V K) (t : V) : Prop :=
  ∀ sc, D t = some sc → (fs t).isSome ∧ (db t).bactsig = some (M.sig (sc.result fs).action) ∧
    (db t).sigs.map (·.csig) = (sc.result fs).children.map (fun c => some (M.hash (M.see (fs c))))

/-- All dependencies of `t` belong to `Q`. -/
def Closed (D : Desc V B A) (fs : Files V B) (Q : V → Prop) (t : V) : Prop :=
  ∀ sc, D t = some sc → ∀ c ∈ (sc.result fs).children, Q c

/-- `Settled` and `Closed` do not depend on files and entries outside `Q`. -/
theorem settled_frame {M : Sem B K A} {D : Desc V B A} (hD : WF D) {fs fs' : Files V B} {db db' : V → BInfo V K} {Q : V → Prop} {t : V}
    (hfs : ∀ v, Q v → fs' v = fs v) (hdb : db' t = db t) (ht : Q t) (hc : Closed D fs Q t) (hs : Settled M D fs db t) :
    Closed D fs' Q t ∧ Settled M D fs' db' t := by
  have hres : ∀ sc, D t = some sc → sc.result fs' = sc.result fs := fun sc hsc =>
    ((result_eq fun d h1 _ => (hfs d (hc sc hsc d ((hD t sc hsc fs).1 d h1))).symm).1).symm
  refine ⟨fun sc hsc => by rw [hres sc hsc]; exact hc sc hsc, fun sc hsc => ?_⟩
  obtain ⟨h1, h2, h3⟩ := hs sc hsc
  rw [hres sc hsc, hfs t ht, hdb]
  refine ⟨h1, h2, h3.trans (List.map_congr_left fun c hc' => ?_)⟩
  rw [hfs c (hc sc hsc c hc')]

/-- The content decider says "up to date" for a settled target. -/
theorem settled_up_to_date {M : Sem B K A} {D : Desc V B A} {S : St V B K A} {t : V} {sc : Scan V B A} (hsc : D t = some sc)
    (hs : Settled M D S.fs S.db t) (hI : InfosOK (S.world M) S.infos) :
    ((S.world M).isUpToDate .content t ((sc.result S.fs).target M) S.infos).1 = true := by
  rw [C18_up_to_date_iff rfl hI (drift_none M S) (by simp)]
  obtain ⟨h1, h2, h3⟩ := hs sc hsc
  refine ⟨Option.isSome_iff_exists.1 h1, ?_, h2, ?_⟩
  · have := congrArg List.length h3
    simp only [List.length_map] at this
    exact this.symm
  · change ∀ p ∈ (sc.result S.fs).children.zip (S.db t).sigs, _
    generalize (S.db t).sigs = sg at *
    generalize (sc.result S.fs).children = ch at *
    clear h2
    induction ch generalizing sg with
    | nil => simp
    | cons c cs ih =>
      cases sg with
      | nil => simp
      | cons x xs =>
        simp only [List.map_cons, List.cons.injEq] at h3
        intro p hp
        simp only [List.zip_cons_cons, List.mem_cons] at hp
        rcases hp with rfl | hp
        · exact ⟨x, rfl, h3.1⟩
        · exact ih xs h3.2 p hp

/-- What is recorded when the dependencies are all hashed is settled. -/
theorem settled_of_recorded {M : Sem B K A} {D : Desc V B A} (hD : WF D) {fs : Files V B} {db : V → BInfo V K} {I : Infos V K} {t : V}
    {sc : Scan V B A} (hsc : D t = some sc) (hex : (fs t).isSome) (hdb : db t = ((sc.result fs).target M).binfo I)
    (hI : ∀ c k, c ∈ (sc.result fs).children → (I c).csig = some k → k = M.hash (M.see (fs c)))
    (hall : ∀ c ∈ (sc.result fs).children, (I c).csig.isSome) : Settled M D fs db t := by
  intro sc' hsc'
  rw [hsc] at hsc'; cases hsc'
  obtain ⟨-, w2, w3⟩ := hD t sc hsc fs
  refine ⟨hex, by rw [hdb]; rfl, ?_⟩
  rw [hdb, binfo_sigs, recorded_eq_children w2 w3, leaf_children, List.map_map]
  apply List.map_congr_left
  intro c hc
  obtain ⟨k, hk⟩ := Option.isSome_iff_exists.1 (hall c hc)
  simp only [Function.comp_apply]
  rw [hk, hI c k hc hk]

theorem uptodate_exists {M : Sem B K A} {S : St V B K A} {t : V} {T : Target V K} (h : ((S.world M).isUpToDate .content t T S.infos).1 = true) :
    (S.fs t).isSome := by
  unfold World.isUpToDate at h
  simp only [Bool.and_eq_true] at h
  exact h.1

/-- In a run, every finished node is settled and its dependencies are finished. -/
def AllSettled (M : Sem B K A) (D : Desc V B A) (S : St V B K A) : Prop :=
  ∀ t, S.done t → Closed D S.fs S.done t ∧ Settled M D S.fs S.db t

theorem AllSettled.step {M : Sem B K A} (hM : M.Faithful) {D : Desc V B A} (hD : WF D) {S S' : St V B K A} {l : Lab V B}
    (hi : Inv M D S) (h : S.busy = true → AllSettled M D S) (hl : Legal S l) (hs : Step M D S l S') (hb' : S'.busy = true ∨ l = .finishRun) :
    AllSettled M D S' := by
  cases hs with
  | begin hb => intro t ht; exact ht.elim
  | source v hb hv hnd =>
    rintro t (rfl | ht)
    · exact ⟨fun sc hsc => by (rw [hv] at hsc; cases hsc), fun sc hsc => by (rw [hv] at hsc; cases hsc)⟩
    · exact ⟨fun sc hsc c hc => Or.inr ((h hb t ht).1 sc hsc c hc), (h hb t ht).2⟩
  | check t sc hr => exact fun x hx => h hr.1 x hx
  | current t sc hr hck hup =>
    obtain ⟨hb, hsc, hnd, hnr, hch⟩ := hr
    obtain ⟨src, hR⟩ := hi.busy hb
    have hex := uptodate_exists hup
    rintro x (rfl | hx)
    · refine ⟨fun sc' hsc' c hc => ?_, settled_of_recorded (I := S.infos) hD hsc hex ?_ (fun c k _ hk => hR.infos c k hk) hck⟩
      · rw [hsc] at hsc'; cases hsc'
        exact Or.inr (hch c hc)
      · exact if_pos rfl
    · have hxt : x ≠ t := fun e => hnd (e ▸ hx)
      obtain ⟨h1, h2⟩ := h hb x hx
      refine ⟨fun sc' hsc' c hc => Or.inr (h1 sc' hsc' c hc), ?_⟩
      exact (settled_frame hD (fun _ _ => rfl) (if_neg hxt) hx h1 h2).2
  | start t sc hr hup =>
    obtain ⟨hb, hsc, hnd, hnr, hch⟩ := hr
    intro x hx
    have hx : S.done x := hx
    obtain ⟨h1, h2⟩ := h hb x hx
    exact settled_frame hD (fun v hv => if_neg (fun e : v = t => hnd (e ▸ hv))) rfl hx h1 h2
  | scribble t r b hb hr =>
    obtain ⟨src, hR⟩ := hi.busy hb
    obtain ⟨k1, -⟩ := hR.run t r hr
    intro x hx
    have hx : S.done x := hx
    obtain ⟨h1, h2⟩ := h hb x hx
    exact settled_frame hD (fun v hv => if_neg (fun e : v = t => k1 (e ▸ hv))) rfl hx h1 h2
  | finish t r view hb hr hview =>
    obtain ⟨src, hR⟩ := hi.busy hb
    obtain ⟨k1, k3, ⟨sc, hsc, hleaf⟩, k5⟩ := hR.run t r hr
    have hfs : ∀ v b, S.done v → (S.write t b).fs v = S.fs v := fun v b hv => if_neg (fun e : v = t => k1 (e ▸ hv))
    rintro x (rfl | hx)
    · have hch : ∀ c ∈ (sc.result S.fs).children, S.done c := fun c hc => (k5 c (by rw [hleaf]; exact hc)).1
      have hres : ∀ b, sc.result (S.write x b).fs = sc.result S.fs := fun b =>
        ((result_eq fun d h1 _ => (hfs d b (hch d ((hD x sc hsc S.fs).1 d h1))).symm).1).symm
      refine ⟨fun sc' hsc' c hc => ?_, settled_of_recorded hD (I := S.infos) hsc ?_ ?_ ?_ ?_⟩
      · rw [hsc] at hsc'; cases hsc'
        change c ∈ (sc.result (S.write x _).fs).children at hc
        rw [hres] at hc
        exact Or.inr (hch c hc)
      · simp [St.write]
      · show (if x = x then _ else _) = ((sc.result (S.write x _).fs).target M).binfo S.infos
        rw [hres, if_pos rfl, hleaf]
      · intro c k hc hk
        change c ∈ (sc.result (S.write x _).fs).children at hc
        rw [hres] at hc
        show k = M.hash (M.see ((S.write x _).fs c))
        rw [hfs c _ (hch c hc)]
        exact hR.infos c k hk
      · intro c hc
        change c ∈ (sc.result (S.write x _).fs).children at hc
        rw [hres] at hc
        exact (k5 c (by rw [hleaf]; exact hc)).2.1
    · have hxt : x ≠ t := fun e => k1 (e ▸ hx)
      obtain ⟨h1, h2⟩ := h hb x hx
      obtain ⟨g1, g2⟩ := settled_frame (db' := fun y => if y = t then (r.leaf.target M).binfo S.infos else S.db y) hD
        (fun v hv => hfs v (some (M.run r.leaf.action (r.leaf.children.map fun c => M.see (view c)))) hv) (if_neg hxt) hx h1 h2
      exact ⟨fun sc' hsc' c hc => Or.inr (g1 sc' hsc' c hc), g2⟩
  | fail t r left hb hr =>
    obtain ⟨src, hR⟩ := hi.busy hb
    obtain ⟨k1, -⟩ := hR.run t r hr
    intro x hx
    have hx : S.done x := hx
    obtain ⟨h1, h2⟩ := h hb x hx
    exact settled_frame hD (fun v hv => if_neg (fun e : v = t => k1 (e ▸ hv))) rfl hx h1 h2
  | finishRun hb hr => exact fun t ht => h hb t ht
  | kill left hb => exact hl.elim
  | edit v b hb => rcases hb' with hb' | hb' <;> simp_all

theorem Reach.settled {M : Sem B K A} (hM : M.Faithful) {D : Desc V B A} {S : St V B K A} (h : Reach M WF Legal D S) (hb : S.busy = true) :
    AllSettled M D S := by
  induction h with
  | init => cases hb
  | step l h0 hl hs ih => exact AllSettled.step hM (h0.inv hM).1 (h0.inv hM).2 ih hl hs (Or.inl hb)
  | newDesc _ h1 => rw [h1] at hb; cases hb

end Verif.Build

/-! ## Nodes the walk can meet -/

namespace Verif.TM
variable {V : Type} [DecidableEq V] [Fintype V]

/-- The walk is confined to `Q`: all nodes on its stacks and in its waiting sets belong to `Q`. -/
structure Inside (Q : V → Prop) (S : St V) : Prop where
  cands : ∀ x ∈ S.cands, Q x
  tops : ∀ x ∈ S.tops, Q x
  wp : ∀ c, ∀ x ∈ S.wp c, Q x
  wse : ∀ c, ∀ x ∈ S.wse c, Q x

theorem Inside.postprocess {Q : V → Prop} {C : Cfg V} {S S' : St V} {ts post : List V} (h : Inside Q S)
    (hp : TM.postprocess C S ts post = some S') : Inside Q S' := by
  unfold TM.postprocess at hp
  simp only at hp
  split at hp
  case isFalse => cases hp
  rename_i hpost
  injection hp with hp
  generalize (ts.toFinset ∪ (C.ses ts).toFinset.filter
    (fun s => updOn S.state (fun s => s ∈ (C.ses ts).toFinset ∧ S.state s = NState.executing) .noState s = .noState)) = R at *
  subst hp
  have hpm : ∀ x ∈ post, Q x := by
    intro x hx
    have hx : x ∈ post.toFinset := by simpa using hx
    rw [hpost] at hx
    simp only [Finset.mem_union, Finset.mem_filter, Finset.mem_biUnion] at hx
    rcases hx with ⟨⟨c, -, hc⟩, -⟩ | ⟨⟨c, -, hc⟩, -⟩
    · exact h.wse c x hc
    · exact h.wp c x hc
  refine ⟨fun x hx => ?_, h.tops, fun c x hx => ?_, h.wse⟩
  · simp only [List.mem_append, List.mem_reverse] at hx
    exact hx.elim (hpm x) (h.cands x)
  · simp only [updOn_apply] at hx
    split at hx
    · simp at hx
    · exact h.wp c x hx

theorem Inside.of_fields {Q : V → Prop} {S S' : St V} (h : Inside Q S) (h1 : S'.cands = S.cands) (h2 : S'.tops = S.tops) (h3 : S'.wp = S.wp)
    (h4 : S'.wse = S.wse) : Inside Q S' := ⟨by rw [h1]; exact h.cands, by rw [h2]; exact h.tops, by rw [h3]; exact h.wp, by rw [h4]; exact h.wse⟩

theorem Inside.willNotBuild {Q : V → Prop} {S : St V} (h : Inside Q S) (ns : Finset V) (mark : Bool) : Inside Q (TM.willNotBuild S ns mark) := by
  refine ⟨h.cands, h.tops, fun c x hx => ?_, h.wse⟩
  simp only [TM.willNotBuild, updOn_apply] at hx
  split at hx
  · simp at hx
  · exact h.wp c x hx

theorem Inside.failTask {Q : V → Prop} {C : Cfg V} {S S' : St V} {ts post : List V} {m : FailMode} (h : Inside Q S)
    (hp : TM.failTask C S ts m post = some S') : Inside Q S' := by
  unfold TM.failTask at hp
  have h0 : Inside Q { S with failedTasks := S.failedTasks ∪ ts.toFinset } := h.of_fields rfl rfl rfl rfl
  cases m <;> simp only at hp
  · refine Inside.postprocess ?_ hp
    have h1 := h0.willNotBuild ts.toFinset true
    exact ⟨h1.cands, h1.tops, h1.wp, h1.wse⟩
  · refine Inside.postprocess ?_ hp
    exact h0.willNotBuild _ _
  · refine Inside.postprocess ?_ hp
    exact ⟨h0.cands, h0.tops, h0.wp, h0.wse⟩

theorem Inside.makeReady {Q : V → Prop} {C : Cfg V} {S : St V} (h : Inside Q S) (ts : List V) (b : Bool) : Inside Q (TM.makeReady C S ts b) := by
  cases b <;> exact h.of_fields rfl rfl rfl rfl

theorem Inside.handOut {Q : V → Prop} {C : Cfg V} {S S' : St V} {n : V} {post : List V} {fate : Fate} (h : Inside Q S)
    (hp : TM.handOut C S n fate post = some S') : Inside Q S' := by
  unfold TM.handOut at hp
  cases fate with
  | exc m => exact h.failTask hp
  | excReady b m => exact (h.makeReady (C := C) (C.targets n) b).failTask hp
  | start => simp only [Option.some.injEq] at hp; subst hp; exact (h.makeReady (C := C) (C.targets n) true).of_fields rfl rfl rfl rfl
  | internal r =>
    cases r with
    | none =>
      refine Inside.postprocess ?_ hp
      have h1 := h.makeReady (C := C) (C.targets n) false
      exact ⟨h1.cands, h1.tops, h1.wp, h1.wse⟩
    | some m => exact (h.makeReady (C := C) (C.targets n) false).failTask hp

theorem Inside.nextCandidate {Q : V → Prop} {S S' : St V} {n : V} {alt : List V} (h : Inside Q S) (ha : ∀ x ∈ alt, Q x)
    (hn : TM.nextCandidate S alt = some (S', n)) : Inside Q S' ∧ Q n := by
  unfold TM.nextCandidate at hn
  split at hn
  · rename_i m rest hc
    simp only [Option.some.injEq, Prod.mk.injEq] at hn
    obtain ⟨rfl, rfl⟩ := hn
    have := h.cands
    rw [hc] at this
    exact ⟨⟨fun x hx => this x (by simp [hx]), h.tops, h.wp, h.wse⟩, this _ (by simp)⟩
  · split at hn
    · cases hn
    · rename_i t ts ht
      have htop := h.tops
      rw [ht] at htop
      simp only at hn
      split at hn
      case h_2 => cases hn
      rename_i a r he
      simp only [Option.some.injEq, Prod.mk.injEq] at hn
      obtain ⟨rfl, rfl⟩ := hn
      have hall : ∀ x ∈ a :: r, Q x := by
        rw [← he]
        intro x hx
        simp only [List.mem_append, List.mem_reverse, List.mem_singleton] at hx
        rcases hx with hx | rfl
        · exact ha x hx
        · exact htop _ (by simp)
      exact ⟨⟨fun x hx => hall x (by simp [hx]), fun x hx => htop x (by simp [hx]), h.wp, h.wse⟩, hall a (by simp)⟩

theorem Inside.considerNode {Q : V → Prop} {C : Cfg V} {S S' : St V} {n : V} {scan : Scan V} {pushed : List V} {o : Outcome} (h : Inside Q S)
    (hn : Q n) (hk : ∀ kids, scan = .ok kids → ∀ c ∈ C.prereqs n ++ kids, Q c) (hc : TM.considerNode C S n scan pushed = some (S', o)) :
    Inside Q S' := by
  unfold TM.considerNode at hc
  split at hc
  · simp only [Option.some.injEq, Prod.mk.injEq] at hc; rw [← hc.1]; exact h
  split at hc
  · simp only [Option.some.injEq, Prod.mk.injEq] at hc; rw [← hc.1]; exact h.of_fields rfl rfl rfl rfl
  rename_i kids
  have hk := hk kids rfl
  simp only at hc
  split at hc
  case isFalse => cases hc
  rename_i hpush
  simp only [Option.some.injEq] at hc
  have h1 : Inside Q (pushKids C (markPending S n) n (C.prereqs n ++ kids) pushed) := by
    refine ⟨fun x hx => ?_, h.tops, h.wp, h.wse⟩
    simp only [pushKids, List.mem_append, List.mem_reverse] at hx
    rcases hx with hx | hx
    · have hx : x ∈ pushed.toFinset := by simpa using hx
      rw [hpush] at hx
      simp only [List.mem_toFinset, List.mem_filter] at hx
      exact hk x hx.1
    · exact h.cands x hx
  generalize pushKids C (markPending S n) n (C.prereqs n ++ kids) pushed = S0 at *
  unfold judge at hc
  split at hc
  · simp only [Prod.mk.injEq] at hc; rw [← hc.1]; exact h1.of_fields rfl rfl rfl rfl
  simp only at hc
  split at hc
  · simp only [Prod.mk.injEq] at hc; rw [← hc.1]
    generalize (C.prereqs n ++ kids).filter (fun c => (S0.state c).rank ≤ 2) = cs
    obtain ⟨-, f2, f3, f4, -⟩ := addWaiting_fields n cs S0
    refine ⟨by simp only [f3]; exact h1.cands, by simp only [f4]; exact h1.tops, fun c x hx => ?_, by simp only [f2]; exact h1.wse⟩
    simp only [addWaiting_wp] at hx
    split at hx
    · rcases Finset.mem_insert.1 hx with rfl | hx
      · exact hn
      · exact h1.wp c x hx
    · exact h1.wp c x hx
  split at hc
  · simp only [Prod.mk.injEq] at hc; rw [← hc.1]
    refine ⟨h1.cands, h1.tops, h1.wp, fun c x hx => ?_⟩
    simp only at hx
    split at hx
    · rcases Finset.mem_insert.1 hx with rfl | hx
      · exact hn
      · exact h1.wse c x hx
    · exact h1.wse c x hx
  · simp only [Prod.mk.injEq] at hc; rw [← hc.1]; exact h1

/-- One iteration of the search. -/
theorem Inside.consider {Q : V → Prop} {C : Cfg V} {S S' : St V} {alt pushed post : List V} {scan : Scan V} {fate : Fate} (h : Inside Q S)
    (ha : ∀ x ∈ alt, Q x)
    (hk : ∀ S1 n kids, TM.nextCandidate S alt = some (S1, n) → Q n → scan = .ok kids → ∀ c ∈ C.prereqs n ++ kids, Q c)
    (hs : TM.step C S (.consider alt scan pushed fate post) = some S') : Inside Q S' := by
  simp only [TM.step] at hs
  split at hs
  · cases hs
  split at hs
  · cases hs
  rename_i S1 n hnc
  obtain ⟨h1, hn⟩ := h.nextCandidate ha hnc
  have hk' := fun kids => hk S1 n kids hnc hn
  split at hs
  · cases hs
  · rename_i S2 hcn
    simp only [Option.some.injEq] at hs
    subst hs
    exact (h1.considerNode hn hk' hcn).of_fields rfl rfl rfl rfl
  · rename_i S2 hcn
    split at hs
    case h_2 => cases hs
    rw [Option.map_eq_some_iff] at hs
    obtain ⟨S3, hS3, rfl⟩ := hs
    exact ((h1.considerNode hn hk' hcn).handOut hS3).of_fields rfl rfl rfl rfl
  · rename_i S2 hcn
    rw [Option.map_eq_some_iff] at hs
    obtain ⟨S3, hS3, rfl⟩ := hs
    exact ((h1.considerNode hn hk' hcn).handOut hS3).of_fields rfl rfl rfl rfl

theorem Inside.flush {Q : V → Prop} {C : Cfg V} {S S' : St V} (h : Inside Q S) (hs : TM.step C S .flush = some S') : Inside Q S' := by
  simp only [TM.step] at hs
  split at hs
  case isFalse => cases hs
  simp only [Option.some.injEq] at hs
  subst hs
  have : Inside Q { S with cands := [] } := ⟨by simp, h.tops, h.wp, h.wse⟩
  exact (this.willNotBuild S.cands.toFinset false).of_fields rfl rfl rfl rfl

theorem postprocess_active {C : Cfg V} {S S' : St V} {ts post : List V} (hp : TM.postprocess C S ts post = some S') :
    S'.active = S.active ∧ S'.started = S.started := by
  unfold TM.postprocess at hp
  simp only at hp
  split at hp
  case isFalse => cases hp
  injection hp with hp
  subst hp
  exact ⟨rfl, rfl⟩

theorem considerNode_started {C : Cfg V} {S S' : St V} {n : V} {scan : Scan V} {pushed : List V} {o : Outcome}
    (hc : TM.considerNode C S n scan pushed = some (S', o)) : S'.started = S.started := by
  unfold TM.considerNode at hc
  split at hc
  · simp only [Option.some.injEq, Prod.mk.injEq] at hc; rw [← hc.1]
  split at hc
  · simp only [Option.some.injEq, Prod.mk.injEq] at hc; rw [← hc.1]; rfl
  simp only at hc
  split at hc
  case isFalse => cases hc
  simp only [Option.some.injEq] at hc
  unfold judge at hc
  split at hc
  · simp only [Prod.mk.injEq] at hc; rw [← hc.1]; rfl
  simp only at hc
  split at hc
  · simp only [Prod.mk.injEq] at hc; rw [← hc.1]
    exact (addWaiting_fields _ _ _).2.2.2.2.2.2.2.2.1
  split at hc
  · simp only [Prod.mk.injEq] at hc; rw [← hc.1]; rfl
  · simp only [Prod.mk.injEq] at hc; rw [← hc.1]; rfl

/-- Only the fate `start` starts anything. -/
theorem consider_idle {C : Cfg V} {S S' : St V} {alt pushed post : List V} {scan : Scan V} {fate : Fate}
    (hf : ∀ x, fate = .start → returned C S alt scan pushed ≠ some x)
    (hs : TM.step C S (.consider alt scan pushed fate post) = some S') : S'.active = S.active ∧ S'.started = S.started := by
  simp only [TM.step] at hs
  split at hs
  · cases hs
  rename_i hst
  split at hs
  · cases hs
  rename_i S1 n hnc
  obtain ⟨-, -, g3, -, -, -, -, -, -, g10, -⟩ := nextCandidate_fields hnc
  split at hs
  · cases hs
  · rename_i S2 hcn
    simp only [Option.some.injEq] at hs
    subst hs
    exact ⟨(considerNode_state hcn).1.trans g10, (considerNode_started hcn).trans g3⟩
  · rename_i S2 hcn
    split at hs
    case h_2 => cases hs
    rw [Option.map_eq_some_iff] at hs
    obtain ⟨S3, hS3, rfl⟩ := hs
    simp only [TM.handOut] at hS3
    obtain ⟨-, f2, f3, -⟩ := failTask_fields hS3
    exact ⟨f3.trans ((considerNode_state hcn).1.trans g10), f2.trans ((considerNode_started hcn).trans g3)⟩
  · rename_i S2 hcn
    rw [Option.map_eq_some_iff] at hs
    obtain ⟨S3, hS3, rfl⟩ := hs
    have hret : returned C S alt scan pushed = some n := by unfold returned; rw [if_neg hst, hnc]; simp [hcn]
    have e1 := (considerNode_state hcn).1.trans g10
    have e2 := (considerNode_started hcn).trans g3
    unfold TM.handOut at hS3
    cases fate with
    | start => exact absurd hret (hf n rfl)
    | exc m =>
      obtain ⟨-, f2, f3, -⟩ := failTask_fields hS3
      exact ⟨f3.trans e1, f2.trans e2⟩
    | excReady b m =>
      obtain ⟨-, f2, f3, -⟩ := failTask_fields hS3
      have := makeReady_fields C S2 (C.targets n) b
      exact ⟨f3.trans (by cases b <;> exact e1), f2.trans (by cases b <;> exact e2)⟩
    | internal r =>
      cases r with
      | none =>
        obtain ⟨f3, f2⟩ := postprocess_active hS3
        exact ⟨f3.trans e1, f2.trans e2⟩
      | some m =>
        obtain ⟨-, f2, f3, -⟩ := failTask_fields hS3
        exact ⟨f3.trans e1, f2.trans e2⟩

end Verif.TM

namespace Verif.Build

open Verif.Sig

variable {V B K A : Type} [DecidableEq V] [DecidableEq K] [Fintype V]

/-! ## Requirements are finished first -/

/-- Whatever is finished or running has its `Requires()` finished. -/
def PreDone (C : TM.Cfg V) (X : CSt V B K A) : Prop :=
  ∀ v, X.S.done v ∨ (X.S.running v).isSome → ∀ p ∈ C.prereqs v, X.S.done p

theorem write_running (S : St V B K A) (t : V) (b : Option B) (v : V) : ((S.write t b).running v).isSome = (S.running v).isSome := by
  simp only [St.write]; cases S.running v <;> rfl

theorem PreDone.step {M : Sem B K A} {D : Desc V B A} {C : TM.Cfg V} (hC : TM.Groups C (fun n => (D n).isSome)) {orig : List V} {X X' : CSt V B K A} {l : TM.Lab V}
    (hJ : J M D C orig X) (h : PreDone C X) (hs : CStep M D C X l X') : PreDone C X' := by
  have hret : ∀ {alt pushed : List V} {scan : TM.Scan V} {n : V}, TM.returned C X.T alt scan pushed = some n → ∀ t ∈ C.targets n, ∀ p ∈ C.prereqs t, X.S.done p := by
    intro alt pushed scan n hr t ht p hp
    rw [hC.pre n t ht] at hp
    obtain ⟨kids, hk, hdone⟩ := TM.C01_dependencies_finished_when_returned hr
    exact hJ.done1 p (hdone p (by simp [hp]))
  cases hs with
  | walk h1 h2 h3 h4 => exact h
  | @source T' alt scan pushed post n h1 h2 h3 h4 =>
    rintro v ((rfl | hv) | hv) p hp
    · exact Or.inr (hret h3 v (hC.wf.self v) p hp)
    · exact Or.inr (h v (Or.inl hv) p hp)
    · exact Or.inr (h v (Or.inr hv) p hp)
  | @current T' alt scan pushed post n lf h1 h2 h3 h4 h5 =>
    obtain ⟨c1, c2, c3, c4, c5, c6⟩ := checkAll_fields M lf (C.targets n) X.S
    obtain ⟨d1, d2, d3, d4, d5, d6, d7⟩ := currentAll_fields M lf (C.targets n) (X.S.checkAll M lf (C.targets n)).1
    intro v hv p hp
    simp only [d4, c4, d5, c5] at hv ⊢
    rcases hv with (hv | hv) | hv
    · exact Or.inr (hret h3 v hv p hp)
    · exact Or.inr (h v (Or.inl hv) p hp)
    · exact Or.inr (h v (Or.inr hv) p hp)
  | @start T' alt scan pushed post n lf h1 h2 h3 h4 h5 =>
    obtain ⟨c1, c2, c3, c4, c5, c6⟩ := checkAll_fields M lf (C.targets n) X.S
    obtain ⟨d1, d2, d3, d4, d5, d6⟩ := startAll_fields lf (C.targets n) (X.S.checkAll M lf (C.targets n)).1
    intro v hv p hp
    simp only [d4, c4, d5, c5] at hv ⊢
    rcases hv with hv | hv | hv
    · exact h v (Or.inl hv) p hp
    · exact hret h3 v hv p hp
    · exact h v (Or.inr hv) p hp
  | early h1 h2 h3 h4 => exact h
  | @removed T' alt scan pushed m post n lf gone h1 h2 h3 h4 h5 h6 =>
    obtain ⟨c1, c2, c3, c4, c5, c6⟩ := checkAll_fields M lf (C.targets n) X.S
    obtain ⟨d1, d2, d3, d4, d5, d6⟩ := startAll_fields lf gone (X.S.checkAll M lf (C.targets n)).1
    obtain ⟨e1, e2, e3, e4, e5, e6, e7⟩ := failAll_fields (fun _ => none) gone ((X.S.checkAll M lf (C.targets n)).1.startAll lf gone)
    intro v hv p hp
    simp only [e4, e5, d4, c4, d5, c5] at hv ⊢
    rcases hv with hv | ⟨hv, hv' | hv'⟩
    · exact h v (Or.inl hv) p hp
    · exact absurd hv' hv
    · exact h v (Or.inr hv') p hp
  | @finish T' n post rs views h1 h2 =>
    obtain ⟨f1, f2, f3, f4, f5⟩ := finishAll_fields M (fun t => decide (X.T.state t = .executing)) rs views (C.targets n) X.S
    intro v hv p hp
    simp only [f3, f4] at hv ⊢
    rcases hv with (hv | hv) | hv
    · exact Or.inr (h v (Or.inr (by rw [(h2 v hv.1).1]; rfl)) p hp)
    · exact Or.inr (h v (Or.inl hv) p hp)
    · exact Or.inr (h v (Or.inr hv.2) p hp)
  | @fail T' n m post left h1 =>
    obtain ⟨e1, e2, e3, e4, e5, e6, e7⟩ := failAll_fields left (C.targets n) X.S
    intro v hv p hp
    simp only [e4, e5] at hv ⊢
    rcases hv with hv | hv
    · exact h v (Or.inl hv) p hp
    · exact h v (Or.inr hv.2) p hp
  | flush => exact h
  | interrupt => exact h

theorem PreDone.steps {M : Sem B K A} (hM : M.Faithful) {D : Desc V B A} (hD : WF D) {C : TM.Cfg V} (hC : TM.Groups C (fun n => (D n).isSome))
    {orig : List V} {X X' : CSt V B K A} (hs : CSteps M D C (Tidy C) X X') (hJ : J M D C orig X) (h : PreDone C X) : PreDone C X' := by
  induction hs with
  | refl => exact h
  | tail l hs' hP hst ih => exact ih.step hC (hs'.j hM hD hC hJ) hst
  | scribble t b _ hr ih =>
    rintro v (hv | hv) p hp
    · exact ih v (Or.inl hv) p hp
    · simp only [write_running] at hv
      exact ih v (Or.inr hv) p hp

/-! ## The second run -/

/-- The state of the second run: nothing has been started, no file has changed, the walk is confined to `Q`. -/
structure Idle (M : Sem B K A) (D : Desc V B A) (fs0 : Files V B) (Q : V → Prop) (X : CSt V B K A) : Prop where
  fs : X.S.fs = fs0
  active : X.T.active = []
  started : X.T.started = []
  running : ∀ v, X.S.running v = none
  infos : InfosOK (X.S.world M) X.S.infos
  settled : ∀ t, Q t → Settled M D fs0 X.S.db t
  memo : ∀ n l sc, X.memo n = some l → D n = some sc → l = sc.result fs0
  inside : TM.Inside Q X.T

/-- What SCons looks for in variant directories (`alter_targets`) are nodes of `Q`. -/
def AltIn (Q : V → Prop) (_ : CSt V B K A) (l : TM.Lab V) (_ : CSt V B K A) : Prop :=
  match l with
  | .consider alt _ _ _ _ => ∀ a ∈ alt, Q a
  | _ => True

theorem Idle.leaf {M : Sem B K A} {D : Desc V B A} {fs0 : Files V B} {Q : V → Prop} {X : CSt V B K A} (h : Idle M D fs0 Q X) {n : V} {sc : Scan V B A}
    (hsc : D n = some sc) : X.leafOf D n = some (sc.result fs0) := by
  unfold CSt.leafOf
  rw [hsc, Option.map_some]
  congr 1
  cases hm : X.memo n with
  | none => simp [h.fs]
  | some l => simpa using h.memo n l sc hm hsc

theorem Idle.scanned {M : Sem B K A} {D : Desc V B A} {C : TM.Cfg V} {fs0 : Files V B} {Q : V → Prop} {X : CSt V B K A} (h : Idle M D fs0 Q X) (n : V)
    (scan : TM.Scan V) : ∀ m l sc, X.scanned D C n scan m = some l → D m = some sc → l = sc.result fs0 := by
  intro m l sc hm hsc
  cases scan with
  | raised => exact h.memo m l sc hm hsc
  | ok kids =>
    simp only [CSt.scanned] at hm
    split at hm
    · simp only at hm
      split at hm
      · rw [h.leaf hsc] at hm
        exact (Option.some.inj hm).symm
      · exact h.memo m l sc hm hsc
    · exact h.memo m l sc hm hsc

theorem returned_is_candidate {C : TM.Cfg V} {S S1 : TM.St V} {alt pushed : List V} {scan : TM.Scan V} {n m : V}
    (h : TM.returned C S alt scan pushed = some n) (hn : TM.nextCandidate S alt = some (S1, m)) : m = n := by
  obtain ⟨-, -, S2, h2⟩ := returned_facts h
  rw [hn] at h2
  simp only [Option.some.injEq, Prod.mk.injEq] at h2
  exact h2.2

theorem Idle.step {M : Sem B K A} {D : Desc V B A} (hD : WF D) {C : TM.Cfg V} {fs0 : Files V B} {Q : V → Prop} {X X' : CSt V B K A} {l : TM.Lab V}
    (hcl : ∀ t, Q t → Closed D fs0 Q t) (hpre : ∀ t, Q t → ∀ p ∈ C.prereqs t, Q p)
    (hpeer : ∀ t, Q t → ∀ m ∈ C.targets t, Q m) (h : Idle M D fs0 Q X) (ha : AltIn Q X l X')
    (hs : CStep M D C X l X') : Idle M D fs0 Q X' := by
  -- the walk stays in `Q`
  have hin : ∀ {alt pushed post : List V} {scan : TM.Scan V} {fate : TM.Fate} {T' : TM.St V} {n : V}, (∀ a ∈ alt, Q a) →
      X.scanOK D C n scan → (∃ S1, TM.nextCandidate X.T alt = some (S1, n)) →
      TM.step C X.T (.consider alt scan pushed fate post) = some T' → TM.Inside Q T' := by
    intro alt pushed post scan fate T' n ha hok hc hst
    refine h.inside.consider ha ?_ hst
    intro S1 m kids hm hQ hk c hc'
    obtain ⟨S2, h2⟩ := hc
    rw [hm] at h2
    simp only [Option.some.injEq, Prod.mk.injEq] at h2
    obtain ⟨-, rfl⟩ := h2
    rcases List.mem_append.1 hc' with hp | hc'
    · exact hpre m hQ c hp
    · rcases hok with e | e
      · rw [e] at hk; cases hk
      · rw [e] at hk
        simp only [TM.Scan.ok.injEq] at hk
        subst hk
        unfold CSt.kidsOf at hc'
        rw [List.mem_eraseDups, List.mem_flatMap] at hc'
        obtain ⟨t, ht, hc'⟩ := hc'
        cases hsc : D t with
        | none => simp [CSt.leafOf, hsc] at hc'
        | some sc =>
          rw [h.leaf hsc] at hc'
          exact hcl t (hpeer m hQ t ht) sc hsc c hc'
  have hQn : ∀ {alt pushed : List V} {scan : TM.Scan V} {n : V}, (∀ a ∈ alt, Q a) → TM.returned C X.T alt scan pushed = some n → Q n := by
    intro alt pushed scan n ha hr
    obtain ⟨-, -, S1, h1⟩ := returned_facts hr
    exact (h.inside.nextCandidate ha h1).2
  have hlf : ∀ {t : V} {l : Leaf V A}, X.leafOf D t = some l → ∃ sc, D t = some sc ∧ l = sc.result fs0 := by
    intro t l hl
    cases hsc : D t with
    | none => simp [CSt.leafOf, hsc] at hl
    | some sc =>
      have := h.leaf hsc
      rw [hl] at this
      exact ⟨sc, rfl, Option.some.inj this⟩
  have hup : ∀ {n : V} {lf : V → Leaf V A}, Q n → X.leaves D (C.targets n) lf → (X.S.checkAll M lf (C.targets n)).2 = true := by
    intro n lf hQ hl
    rw [(checkAll_spec h.infos).2.2.2]
    intro t ht
    obtain ⟨sc, hsc, e⟩ := hlf (hl t ht)
    have hS := h.settled t (hpeer n hQ t ht)
    rw [e]
    rw [← h.fs] at hS ⊢
    exact settled_up_to_date hsc hS h.infos
  cases hs with
  | @walk T' T1 alt scan pushed fate post n h1 h2 h3 h4 =>
    obtain ⟨e1, e2⟩ := TM.consider_idle (fun x _ => by rw [h4]; simp) h1
    exact ⟨h.fs, e1.trans h.active, e2.trans h.started, h.running, h.infos, h.settled, h.scanned n scan, hin ha h3 ⟨T1, h2⟩ h1⟩
  | @source T' alt scan pushed post n h1 h2 h3 h4 =>
    obtain ⟨e1, e2⟩ := TM.consider_idle (by simp) h1
    exact ⟨h.fs, e1.trans h.active, e2.trans h.started, h.running, h.infos, h.settled, h.scanned n scan, hin ha h2 (returned_facts h3).2.2 h1⟩
  | @current T' alt scan pushed post n lf h1 h2 h3 h4 h5 =>
    obtain ⟨e1, e2⟩ := TM.consider_idle (by simp) h1
    obtain ⟨c1, c2, c3, c4, c5, c6⟩ := checkAll_fields M lf (C.targets n) X.S
    obtain ⟨a1, a2, a3, a4⟩ := checkAll_spec (lf := lf) (ts := C.targets n) h.infos
    have hcur := a4.1 h5
    generalize (X.S.checkAll M lf (C.targets n)).1 = Y at *
    obtain ⟨d1, d2, d3, d4, d5, d6, d7⟩ := currentAll_fields M lf (C.targets n) Y
    refine ⟨d1.trans (c1.trans h.fs), e1.trans h.active, e2.trans h.started, fun v => by rw [d5, c5]; exact h.running v, ?_, ?_, h.scanned n scan,
      hin ha h2 (returned_facts h3).2.2 h1⟩
    · simp only [d2]
      intro c k hk
      have := a1 c k hk
      rw [this]
      simp [World.diskCsig, St.world, d1]
    intro t ht
    simp only
    by_cases htn : t ∈ C.targets n
    · obtain ⟨sc, hsc, e⟩ := hlf (h4 t htn)
      have hex := uptodate_exists (hcur t htn)
      rw [h.fs] at hex
      refine settled_of_recorded (I := Y.infos) hD hsc hex (by rw [currentAll_db htn, e]) (fun c k _ hk => ?_) (fun c hc => ?_)
      · have := a1 c k hk
        rw [this]
        show M.hash (M.see (Y.fs c)) = _
        rw [c1, h.fs]
      · exact a2 t htn c (by rw [e]; exact hc)
    · have := h.settled t ht
      intro sc hsc
      obtain ⟨g1, g2, g3⟩ := this sc hsc
      rw [d7 t htn, c2]
      exact ⟨g1, g2, g3⟩
  | start h1 h2 h3 h4 h5 =>
    rw [hup (hQn ha h3) h4] at h5; cases h5
  | @early T' alt scan pushed fate m post n h1 h2 h3 h4 =>
    obtain ⟨e1, e2⟩ := TM.consider_idle (by rintro x rfl; simp [TM.Fate.failure] at h3) h1
    exact ⟨h.fs, e1.trans h.active, e2.trans h.started, h.running, h.infos, h.settled, h.scanned n scan, hin ha h2 (returned_facts h4).2.2 h1⟩
  | removed h1 h2 h3 h4 h5 h6 =>
    rw [hup (hQn ha h3) h4] at h5; cases h5
  | finish h1 => simp [TM.step, h.active] at h1
  | fail h1 => simp [TM.step, h.active] at h1
  | flush h1 =>
    have hi := h.inside.flush h1
    simp only [TM.step] at h1
    split at h1
    case isFalse => cases h1
    simp only [Option.some.injEq] at h1
    refine ⟨h.fs, ?_, ?_, h.running, h.infos, h.settled, h.memo, hi⟩
    · rw [← h1]; exact h.active
    · rw [← h1]; exact h.started
  | interrupt h1 =>
    simp only [TM.step, Option.some.injEq] at h1
    subst h1
    exact ⟨h.fs, h.active, h.started, h.running, h.infos, h.settled, h.memo, h.inside.of_fields rfl rfl rfl rfl⟩

/-! ## C16 -/

/-- **C16 for whole runs.**  After any history, let `scons` run for the targets `orig` (any schedule, possibly with failures leaving no files) and write its
signatures; then, with no edit in between, run it again for targets the first run had finished.  Whatever the schedule, the second run starts no action, and
every file has the same content (or absence) as before. -/
theorem C16_second_run_does_nothing {M : Sem B K A} (hM : M.Faithful) {D : Desc V B A} {S S1 S2 S3 : St V B K A} {X Y : CSt V B K A} {C : TM.Cfg V}
    {orig orig2 : List V} (hist : Hist M D S) (hC : TM.Groups C (fun n => (D n).isSome))
    (hb : Step M D S .begin S1) (hrun : CSteps M D C (Tidy C) (CSt.init orig S1) X) (hend : Step M D X.S .finishRun S2)
    (hfin : ∀ t ∈ orig2, (X.T.state t).done)
    (hb2 : Step M D S2 .begin S3) (hrun2 : CSteps M D C (AltIn fun a => (X.T.state a).done) (CSt.init orig2 S3) Y) :
    Y.T.started = [] ∧ Y.S.fs = X.S.fs := by
  obtain ⟨hr, -⟩ := hist.reach hM
  have hD := (hr.inv hM).1
  have hJ0 : J M D C orig (CSt.init orig S1) := J.init ⟨_, hr, hb⟩
  have hJ := hrun.j hM hD hC hJ0
  have hset := hJ.reach.settled hM hJ.busy
  have hpre : PreDone C X := PreDone.steps hM hD hC hrun hJ0 (by
    cases hb
    rintro v (hv | hv)
    · exact hv.elim
    · cases hv)
  have hinit : Idle M D X.S.fs X.S.done (CSt.init orig2 S3) := by
    cases hend
    cases hb2
    refine ⟨rfl, rfl, rfl, fun _ => rfl, ?_, fun t ht => (hset t ht).2, fun n l sc h => (by cases h), ⟨by simp [CSt.init, TM.St.init], ?_, by simp [CSt.init, TM.St.init],
      by simp [CSt.init, TM.St.init]⟩⟩
    · intro c k hk; cases hk
    · intro t ht
      exact hJ.done1 t (hfin t ht)
  have : Idle M D X.S.fs X.S.done Y := by
    clear hfin hb2 hend
    induction hrun2 with
    | refl => exact hinit
    | @tail Y1 Y2 l h1 hP hs ih =>
      refine Idle.step hD (fun t ht => (hset t ht).1) (fun t ht => hpre t (Or.inl ht)) hJ.sync ih ?_ hs
      cases l with
      | consider alt scan pushed fate post => exact fun a ha => hJ.done1 a (hP a ha)
      | _ => trivial
    | scribble t b _ hr ih => rw [ih.running t] at hr; cases hr
  exact ⟨this.started, this.fs⟩

/-- **C16, the common case.**  After a successful run (no failure, no interruption, no cycle), the same command again starts nothing and changes nothing. -/
theorem C16_same_command_again_does_nothing {M : Sem B K A} (hM : M.Faithful) {D : Desc V B A} {S S1 S2 S3 : St V B K A} {X Y : CSt V B K A} {C : TM.Cfg V}
    {orig : List V} (hist : Hist M D S) (hC : TM.Groups C (fun n => (D n).isSome))
    (hb : Step M D S .begin S1) (hrun : CSteps M D C NoIgnore (CSt.init orig S1) X) (hover : X.T.over) (hns : X.T.stopped = false)
    (hok : X.T.failedTasks = ∅) {foundCycle : V → Bool} (hcl : ¬ TM.cleanupRaises X.T foundCycle) (hend : Step M D X.S .finishRun S2)
    (hb2 : Step M D S2 .begin S3) (hrun2 : CSteps M D C (AltIn fun a => (X.T.state a).done) (CSt.init orig S3) Y) :
    Y.T.started = [] ∧ Y.S.fs = X.S.fs := by
  obtain ⟨hr, -⟩ := hist.reach hM
  have hD := (hr.inv hM).1
  have hJ0 : J M D C orig (CSt.init orig S1) := J.init ⟨_, hr, hb⟩
  have htidy : CSteps M D C (Tidy C) (CSt.init orig S1) X := by
    clear hover hns hcl hend hrun2
    induction hrun with
    | refl => exact .refl _
    | @tail X1 X2 l h1 hP hs ih =>
      have hf1 : X1.T.failedTasks = ∅ := by
        apply Finset.subset_empty.1
        intro f hff
        rw [← hok]; exact TM.failedTasks_mono hs.tm hff
      have h2 := ih hf1
      exact .tail l h2 (tidy_of_no_failure hC (h2.j hM hD hC hJ0) hP hs hok) hs
    | scribble t b _ hr ih => exact .scribble t b (ih hok) hr
  refine C16_second_run_does_nothing hM hist hC hb htidy hend ?_ hb2 hrun2
  intro t ht
  have hJ := htidy.j hM hD hC hJ0
  by_contra hnd
  have hreach : TM.Reach C (TM.PlainLab C) orig X.T := TM.Steps.mono (fun _ l _ => hC.noSELab l) hJ.tm
  exact hcl (TM.C06_unbuilt_target_is_reported (hC.project orig) hreach hover hns foundCycle ht hnd
    (by rintro ⟨f, hf, _⟩; rw [hok] at hf; simp at hf))

end Verif.Build
