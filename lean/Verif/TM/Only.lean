import Verif.TM.Props2

/-!
# C48: only what was asked for is built

Which nodes the walk can touch: the requested targets, what `alter_targets()` replaced them by, and the dependencies found by scans of these; and how the record of
dependencies (`seen`) grows.
-/

set_option linter.unusedSectionVars false

namespace Verif.TM
variable {V : Type} [DecidableEq V] [Fintype V]

theorem considerNode_seen {C : Cfg V} {S S' : St V} {n : V} {scan : Scan V} {pushed : List V} {o : Outcome}
    (h : considerNode C S n scan pushed = some (S', o)) :
    (S'.seen = S.seen ∧ (1 < (S.state n).rank ∨ scan = .raised)) ∨
      ∃ kids, scan = .ok kids ∧ S'.seen = updOn S.seen (· ∈ C.targets n) (S.seen n ∪ (C.prereqs n ++ kids).toFinset) := by
  unfold considerNode at h
  split at h
  · rename_i hr
    simp only [Option.some.injEq, Prod.mk.injEq] at h; left; rw [← h.1]; exact ⟨rfl, .inl hr⟩
  · split at h
    · simp only [Option.some.injEq, Prod.mk.injEq] at h; left; rw [← h.1]; exact ⟨rfl, .inr rfl⟩
    · rename_i kids
      simp only at h
      split at h
      · simp only [Option.some.injEq] at h
        right
        refine ⟨kids, rfl, ?_⟩
        have h3 := congrArg Prod.fst h
        simp only at h3
        rw [← h3]
        unfold judge
        split
        · rfl
        · simp only; split
          · exact (addWaiting_fields n _ _).2.2.2.2.2.2.2.2.2.2.1
          · split <;> rfl
      · cases h

theorem handOut_seen {C : Cfg V} {S S' : St V} {n : V} {fate : Fate} {post : List V} (h : handOut C S n fate post = some S') :
    S'.seen = S.seen := (Calm.handOut h).seen

/-- How the record of dependencies grows. -/
theorem step_seen {C : Cfg V} {S S' : St V} {l : Lab V} (h : step C S l = some S') :
    (S'.seen = S.seen ∧ ∀ alt kids pushed fate post S1 n, l = .consider alt (.ok kids) pushed fate post → nextCandidate S alt = some (S1, n) →
        1 < (S1.state n).rank) ∨
      ∃ alt kids pushed fate post S1 n, l = .consider alt (.ok kids) pushed fate post ∧ nextCandidate S alt = some (S1, n) ∧
      S'.seen = updOn S.seen (· ∈ C.targets n) (S.seen n ∪ (C.prereqs n ++ kids).toFinset) := by
  cases l with
  | consider alt scan pushed fate post =>
    simp only [step] at h
    split at h
    · cases h
    split at h
    · cases h
    rename_i S1 n hnc
    have g4 := (nextCandidate_fields hnc).2.2.2.1
    have fin : ∀ {S2 : St V} {o : Outcome}, considerNode C S1 n scan pushed = some (S2, o) → S'.seen = S2.seen →
        (S'.seen = S.seen ∧ ∀ alt' kids pushed' fate' post' S1 n, Lab.consider alt scan pushed fate post = .consider alt' (.ok kids) pushed' fate' post' →
          nextCandidate S alt' = some (S1, n) → 1 < (S1.state n).rank) ∨ ∃ alt' kids pushed' fate' post' S1 n, Lab.consider alt scan pushed fate post = .consider alt' (.ok kids) pushed' fate' post' ∧
          nextCandidate S alt' = some (S1, n) ∧ S'.seen = updOn S.seen (· ∈ C.targets n) (S.seen n ∪ (C.prereqs n ++ kids).toFinset) := by
      intro S2 o hcn he
      rcases considerNode_seen hcn with ⟨h1, hr⟩ | ⟨kids, hk, h1⟩
      · left
        refine ⟨by rw [he, h1, g4], ?_⟩
        intro alt' kids pushed' fate' post' S1' n' e hnc'
        injection e with e1 e2
        subst e1
        rw [hnc] at hnc'
        simp only [Option.some.injEq, Prod.mk.injEq] at hnc'
        obtain ⟨rfl, rfl⟩ := hnc'
        rcases hr with hr | hr
        · exact hr
        · rw [e2] at hr; cases hr
      · right; subst hk
        exact ⟨alt, kids, pushed, fate, post, S1, n, rfl, hnc, by rw [he, h1, g4]⟩
    split at h
    · cases h
    · rename_i S2 hcn
      simp only [Option.some.injEq] at h
      exact fin hcn (by rw [← h])
    · rename_i S2 hcn
      split at h
      · rw [Option.map_eq_some_iff] at h
        obtain ⟨S3, h1, h2⟩ := h
        exact fin hcn (by rw [← h2]; exact (handOut_seen h1 : S3.seen = S2.seen))
      · cases h
    · rename_i S2 hcn
      rw [Option.map_eq_some_iff] at h
      obtain ⟨S3, h1, h2⟩ := h
      exact fin hcn (by rw [← h2]; exact (handOut_seen h1 : S3.seen = S2.seen))
  | finish n res post =>
    simp only [step] at h
    split at h
    case isFalse => cases h
    left
    refine ⟨?_, by intros; simp_all⟩
    split at h
    · rw [(postprocess_failedTasks h).2.2.2.1]; rfl
    · rw [(failTask_fields h).2.2.2.1]
  | flush =>
    simp only [step] at h
    split at h
    case isFalse => cases h
    simp only [Option.some.injEq] at h
    left; rw [← h]; exact ⟨rfl, by intros; simp_all⟩
  | interrupt =>
    simp only [step, Option.some.injEq] at h
    left; rw [← h]; exact ⟨rfl, by intros; simp_all⟩

/-- The set `W` of nodes is closed under what belongs together: co-targets, prerequisites, side effects. -/
structure Closed (C : Cfg V) (W : V → Prop) : Prop where
  tgt : ∀ n, W n → ∀ m ∈ C.targets n, W m
  act : ∀ n, W n → ∀ m ∈ C.actTargets n, W m
  pre : ∀ n, W n → ∀ m ∈ C.prereqs n, W m
  se : ∀ n, W n → ∀ m ∈ C.sideEffects n, W m

/-- Everything the walk has in its hands lies in `W`. -/
structure Within (W : V → Prop) (S : St V) : Prop where
  cands : ∀ x ∈ S.cands, W x
  tops : ∀ x ∈ S.tops, W x
  cur : ∀ x ∈ S.curTop, W x
  wp : ∀ c, ∀ x ∈ S.wp c, W x
  wse : ∀ c, ∀ x ∈ S.wse c, W x
  state : ∀ x, S.state x ≠ .noState → W x
  started : ∀ x ∈ S.started, W x
  active : ∀ x ∈ S.active, W x

theorem ses_within {C : Cfg V} {W : V → Prop} (hW : Closed C W) {ts : List V} (h : ∀ x ∈ ts, W x) : ∀ x ∈ C.ses ts, W x := by
  intro x hx
  obtain ⟨t, ht, hx⟩ := ses_mem.1 hx
  exact hW.se t (h t ht) x hx

theorem Within.postprocess {C : Cfg V} {W : V → Prop} {S S' : St V} {ts post : List V} (h : Within W S)
    (hp : postprocess C S ts post = some S') : Within W S' := by
  unfold TM.postprocess at hp
  simp only at hp
  split at hp
  case isFalse => cases hp
  rename_i hpost
  injection hp with hp
  rw [← hp]
  refine ⟨?_, h.tops, h.cur, ?_, h.wse, ?_, h.started, h.active⟩
  · intro x hx
    simp only [List.mem_append, List.mem_reverse] at hx
    rcases hx with hx | hx
    · have : x ∈ post.toFinset := by simpa using hx
      rw [hpost, Finset.mem_union, Finset.mem_filter, Finset.mem_filter, Finset.mem_biUnion, Finset.mem_biUnion] at this
      rcases this with ⟨⟨a, -, h1⟩, -⟩ | ⟨⟨a, -, h1⟩, -⟩
      · exact h.wse a x h1
      · exact h.wp a x h1
    · exact h.cands x hx
  · intro c x hx
    unfold updOn at hx
    simp only at hx
    split at hx
    · simp at hx
    · exact h.wp c x hx
  · intro x hx
    unfold updOn at hx
    simp only at hx
    split at hx
    · exact absurd rfl hx
    · exact h.state x hx

theorem Within.executed {C : Cfg V} {W : V → Prop} {S : St V} {ts : List V} (h : Within W S) : Within W (executed C S ts) := by
  refine ⟨h.cands, h.tops, h.cur, h.wp, h.wse, ?_, h.started, h.active⟩
  intro x hx
  simp only [TM.executed] at hx
  split at hx
  · rename_i h1
    simp only [List.mem_filter, decide_eq_true_eq] at h1
    exact h.state x (by rw [h1.2]; simp)
  · split at hx
    · exact absurd rfl hx
    · exact h.state x hx

theorem Within.wnb {W : V → Prop} {S : St V} {A : Finset V} {b : Bool} (h : Within W S) (hA : ∀ x ∈ A, W x) : Within W (willNotBuild S A b) := by
  have hU := upSet_ind S.wp A W hA (fun c p _ hp => h.wp c p hp)
  refine ⟨h.cands, h.tops, h.cur, ?_, h.wse, ?_, h.started, h.active⟩
  · intro c x hx
    simp only [willNotBuild, updOn_apply] at hx
    split at hx
    · simp at hx
    · exact h.wp c x hx
  · intro x hx
    simp only [willNotBuild] at hx
    split at hx
    · simp only [updOn_apply] at hx
      split at hx
      · exact hU x (by assumption)
      · exact h.state x hx
    · exact h.state x hx

theorem Within.failTask {C : Cfg V} {W : V → Prop} {S S' : St V} {ts post : List V} {m : FailMode} (h : Within W S) (hts : ∀ x ∈ ts, W x)
    (hp : failTask C S ts m post = some S') : Within W S' := by
  have h0 : Within W { S with failedTasks := S.failedTasks ∪ ts.toFinset } := ⟨h.cands, h.tops, h.cur, h.wp, h.wse, h.state, h.started, h.active⟩
  have h1 := h0.wnb (A := ts.toFinset) (b := true) (by simpa using hts)
  unfold TM.failTask at hp
  cases m with
  | ignore => exact h0.executed.postprocess hp
  | keepGoing => exact h1.postprocess hp
  | stop =>
    refine Within.postprocess ?_ hp
    exact ⟨h1.cands, h1.tops, h1.cur, h1.wp, h1.wse, h1.state, h1.started, h1.active⟩

theorem Within.makeReady {C : Cfg V} {W : V → Prop} (hW : Closed C W) {S : St V} {ts : List V} {b : Bool} (h : Within W S) (hts : ∀ x ∈ ts, W x) :
    Within W (makeReady C S ts b) := by
  cases b
  · refine ⟨h.cands, h.tops, h.cur, h.wp, h.wse, ?_, h.started, h.active⟩
    intro x hx
    simp only [TM.makeReady, updOn_apply, Bool.false_eq_true, if_false] at hx
    split at hx
    · exact hts x (by assumption)
    · exact h.state x hx
  · refine ⟨h.cands, h.tops, h.cur, h.wp, h.wse, ?_, h.started, h.active⟩
    intro x hx
    simp only [TM.makeReady, updOn_apply, if_true] at hx
    split at hx
    · rename_i h1
      exact h1.elim (hts x) (ses_within hW hts x)
    · exact h.state x hx

theorem Within.handOut {C : Cfg V} {W : V → Prop} (hW : Closed C W) {S S' : St V} {n : V} {fate : Fate} {post : List V} (h : Within W S) (hn : W n)
    (hh : handOut C S n fate post = some S') : Within W S' := by
  have hts := hW.tgt n hn
  unfold TM.handOut at hh
  cases fate with
  | exc m => exact h.failTask hts hh
  | excReady b m => exact (h.makeReady hW hts).failTask hts hh
  | internal res =>
    cases res with
    | none => exact (h.makeReady hW hts).executed.postprocess hh
    | some m => exact (h.makeReady hW hts).failTask hts hh
  | start =>
    simp only [Option.some.injEq] at hh
    have h1 := h.makeReady (b := true) hW hts
    rw [← hh]
    refine ⟨h1.cands, h1.tops, h1.cur, h1.wp, h1.wse, h1.state, ?_, ?_⟩
    · intro x hx
      rcases List.mem_append.1 hx with hx | hx
      · exact hts x hx
      · exact h1.started x hx
    · intro x hx
      rcases List.mem_cons.1 hx with hx | hx
      · rw [hx]; exact hn
      · exact h1.active x hx

theorem Within.considerNode {C : Cfg V} {W : V → Prop} (hW : Closed C W) {S S' : St V} {n : V} {scan : Scan V} {pushed : List V} {o : Outcome}
    (h : Within W S) (hn : W n) (hk : (S.state n).rank ≤ 1 → ∀ kids, scan = .ok kids → ∀ x ∈ kids, W x)
    (hc : considerNode C S n scan pushed = some (S', o)) : Within W S' := by
  have hm : Within W (markPending S n) := by
    refine ⟨h.cands, h.tops, h.cur, h.wp, h.wse, ?_, h.started, h.active⟩
    intro x hx
    simp only [markPending, upd_apply] at hx
    split at hx
    · rename_i e; rw [e]; exact hn
    · exact h.state x hx
  unfold TM.considerNode at hc
  split at hc
  · simp only [Option.some.injEq, Prod.mk.injEq] at hc; rw [← hc.1]; exact h
  · rename_i hrank
    split at hc
    · simp only [Option.some.injEq, Prod.mk.injEq] at hc; rw [← hc.1]; exact hm
    · rename_i kids
      simp only at hc
      split at hc
      · rename_i hpush
        have hall : ∀ x ∈ C.prereqs n ++ kids, W x := by
          intro x hx
          rcases List.mem_append.1 hx with hx | hx
          · exact hW.pre n hn x hx
          · exact hk (by omega) kids rfl x hx
        have hpk : Within W (pushKids C (markPending S n) n (C.prereqs n ++ kids) pushed) := by
          refine ⟨?_, hm.tops, hm.cur, hm.wp, hm.wse, hm.state, hm.started, hm.active⟩
          intro x hx
          simp only [pushKids, List.mem_append, List.mem_reverse] at hx
          rcases hx with hx | hx
          · have : x ∈ pushed.toFinset := by simpa using hx
            rw [hpush] at this
            simp only [List.mem_toFinset, List.mem_filter] at this
            exact hall x this.1
          · exact hm.cands x hx
        generalize pushKids C (markPending S n) n (C.prereqs n ++ kids) pushed = T at hc hpk
        simp only [Option.some.injEq] at hc
        have h3 := congrArg Prod.fst hc
        simp only at h3
        rw [← h3]
        unfold judge
        split
        · refine ⟨hpk.cands, hpk.tops, hpk.cur, hpk.wp, hpk.wse, ?_, hpk.started, hpk.active⟩
          intro x hx
          simp only [updOn_apply] at hx
          split at hx
          · exact hW.act n hn x (by assumption)
          · exact hpk.state x hx
        · simp only; split
          · obtain ⟨f1, f2, f3, f4, f5, f6, f7, f8, f9, -⟩ := addWaiting_fields n ((C.prereqs n ++ kids).filter (fun c => (T.state c).rank ≤ 2)) T
            refine ⟨?_, ?_, ?_, ?_, ?_, ?_, ?_, ?_⟩
            · intro x hx; exact hpk.cands x (by simpa only [f3] using hx)
            · intro x hx; exact hpk.tops x (by simpa only [f4] using hx)
            · intro x hx; exact hpk.cur x (by simpa only [f5] using hx)
            · intro c x hx
              simp only [addWaiting_wp] at hx
              split at hx
              · rcases Finset.mem_insert.1 hx with e | hx
                · rw [e]; exact hn
                · exact hpk.wp c x hx
              · exact hpk.wp c x hx
            · intro c x hx; exact hpk.wse c x (by simpa only [f2] using hx)
            · intro x hx; exact hpk.state x (by simpa only [f1] using hx)
            · intro x hx; exact hpk.started x (by simpa only [f9] using hx)
            · intro x hx; exact hpk.active x (by simpa only [f8] using hx)
          · split
            · refine ⟨hpk.cands, hpk.tops, hpk.cur, hpk.wp, ?_, hpk.state, hpk.started, hpk.active⟩
              intro c x hx
              simp only at hx
              split at hx
              · rcases Finset.mem_insert.1 hx with e | hx
                · rw [e]; exact hn
                · exact hpk.wse c x hx
              · exact hpk.wse c x hx
            · exact hpk
      · cases hc

/-- Scans of nodes in `W`, and `alter_targets()`, report only nodes in `W`. -/
def Lab.inside (W : V → Prop) (S : St V) : Lab V → Prop
  | .consider alt scan _ _ _ => (∀ x ∈ alt, W x) ∧ ∀ S1 n kids, nextCandidate S alt = some (S1, n) → scan = .ok kids → (S1.state n).rank ≤ 1 → W n → ∀ x ∈ kids, W x
  | _ => True

theorem Within.step {C : Cfg V} {W : V → Prop} (hW : Closed C W) {S S' : St V} {l : Lab V} (h : Within W S) (hl : l.inside W S)
    (hs : step C S l = some S') : Within W S' := by
  cases l with
  | consider alt scan pushed fate post =>
    simp only [TM.step] at hs
    split at hs
    · cases hs
    split at hs
    · cases hs
    rename_i S1 n hnc
    obtain ⟨h1, hn⟩ : Within W S1 ∧ W n := by
      have hnc' := hnc
      unfold TM.nextCandidate at hnc'
      split at hnc'
      · rename_i k rest hc
        simp only [Option.some.injEq, Prod.mk.injEq] at hnc'
        rw [← hnc'.1, ← hnc'.2]
        exact ⟨⟨fun x hx => h.cands x (by rw [hc]; exact List.mem_cons_of_mem _ hx), h.tops, h.cur, h.wp, h.wse, h.state, h.started, h.active⟩,
          h.cands k (by rw [hc]; simp)⟩
      · split at hnc'
        · cases hnc'
        · rename_i t ts ht
          simp only at hnc'
          have hin : ∀ x ∈ alt.reverse ++ [t], W x := by
            intro x hx
            rcases List.mem_append.1 hx with hx | hx
            · exact hl.1 x (by simpa using hx)
            · simp only [List.mem_singleton] at hx; rw [hx]; exact h.tops t (by rw [ht]; simp)
          split at hnc'
          · rename_i a r hr
            simp only [Option.some.injEq, Prod.mk.injEq] at hnc'
            rw [← hnc'.1, ← hnc'.2]
            rw [hr] at hin
            refine ⟨⟨fun x hx => hin x (List.mem_cons_of_mem _ hx), fun x hx => h.tops x (by rw [ht]; exact List.mem_cons_of_mem _ hx), ?_, h.wp, h.wse, h.state, h.started, h.active⟩, hin a (by simp)⟩
            intro x hx
            simp only [Option.mem_def, Option.some.injEq] at hx
            rw [← hx]; exact h.tops t (by rw [ht]; simp)
          · cases hnc'
    have hk : (S1.state n).rank ≤ 1 → ∀ kids, scan = .ok kids → ∀ x ∈ kids, W x := fun hr kids e => hl.2 S1 n kids hnc e hr hn
    split at hs
    · cases hs
    · rename_i S2 hcn
      simp only [Option.some.injEq] at hs
      have h2 := h1.considerNode hW hn hk hcn
      rw [← hs]
      exact ⟨h2.cands, h2.tops, h2.cur, h2.wp, h2.wse, h2.state, h2.started, h2.active⟩
    · rename_i S2 hcn
      split at hs
      · rw [Option.map_eq_some_iff] at hs
        obtain ⟨S3, h3, h4⟩ := hs
        have h5 := (h1.considerNode hW hn hk hcn).handOut hW hn h3
        rw [← h4]
        exact ⟨h5.cands, h5.tops, h5.cur, h5.wp, h5.wse, h5.state, h5.started, h5.active⟩
      · cases hs
    · rename_i S2 hcn
      rw [Option.map_eq_some_iff] at hs
      obtain ⟨S3, h3, h4⟩ := hs
      have h5 := (h1.considerNode hW hn hk hcn).handOut hW hn h3
      rw [← h4]
      exact ⟨h5.cands, h5.tops, h5.cur, h5.wp, h5.wse, h5.state, h5.started, h5.active⟩
  | finish n res post =>
    simp only [TM.step] at hs
    split at hs
    case isFalse => cases hs
    rename_i hn
    have h1 : Within W { S with active := S.active.erase n, clock := S.clock + 1 } :=
      ⟨h.cands, h.tops, h.cur, h.wp, h.wse, h.state, h.started, fun x hx => h.active x (List.mem_of_mem_erase hx)⟩
    split at hs
    · exact h1.executed.postprocess hs
    · exact h1.failTask (hW.tgt n (h.active n hn)) hs
  | flush =>
    simp only [TM.step] at hs
    split at hs
    case isFalse => cases hs
    simp only [Option.some.injEq] at hs
    have h1 : Within W { S with cands := [] } := ⟨by simp, h.tops, h.cur, h.wp, h.wse, h.state, h.started, h.active⟩
    have h2 := h1.wnb (A := S.cands.toFinset) (b := false) (by simpa using h.cands)
    rw [← hs]
    exact ⟨h2.cands, h2.tops, h2.cur, h2.wp, h2.wse, h2.state, h2.started, h2.active⟩
  | interrupt =>
    simp only [TM.step, Option.some.injEq] at hs
    rw [← hs]
    exact ⟨h.cands, h.tops, h.cur, h.wp, h.wse, h.state, h.started, h.active⟩

theorem seen_mono {C : Cfg V} {S S' : St V} {l : Lab V} (hp : ∀ n m, m ∈ C.targets n → S.seen m = S.seen n)
    (h : step C S l = some S') (x : V) : S.seen x ⊆ S'.seen x := by
  rcases step_seen h with ⟨h1, -⟩ | ⟨alt, kids, pushed, fate, post, S1, n, -, -, h1⟩
  · rw [h1]
  · rw [h1]
    intro c hc
    simp only [updOn_apply]
    split
    · rename_i hx
      rw [hp n x hx] at hc
      exact Finset.mem_union_left _ hc
    · exact hc

/-- What a build for `orig` may touch, as far as known in state `S`: the requested targets, the nodes `Alt` that `alter_targets()` put in their place, and from there
everything reported as a dependency, co-targets, prerequisites and side effects. -/
inductive Wanted (C : Cfg V) (Alt : V → Prop) (orig : List V) (S : St V) : V → Prop
  | top {x} : x ∈ orig → Wanted C Alt orig S x
  | alt {x} : Alt x → Wanted C Alt orig S x
  | dep {x y} : Wanted C Alt orig S x → y ∈ S.seen x → Wanted C Alt orig S y
  | tgt {x y} : Wanted C Alt orig S x → y ∈ C.targets x → Wanted C Alt orig S y
  | pre {x y} : Wanted C Alt orig S x → y ∈ C.prereqs x → Wanted C Alt orig S y
  | se {x y} : Wanted C Alt orig S x → y ∈ C.sideEffects x → Wanted C Alt orig S y

theorem Wanted.mono {C : Cfg V} {Alt : V → Prop} {orig : List V} {S S' : St V} (h : ∀ x, S.seen x ⊆ S'.seen x) {x : V} (hx : Wanted C Alt orig S x) :
    Wanted C Alt orig S' x := by
  induction hx with
  | top h1 => exact .top h1
  | alt h1 => exact .alt h1
  | dep _ h1 ih => exact .dep ih (h _ h1)
  | tgt _ h1 ih => exact .tgt ih h1
  | pre _ h1 ih => exact .pre ih h1
  | se _ h1 ih => exact .se ih h1

theorem Wanted.closed {C : Cfg V} (hC : C.WF) (Alt : V → Prop) (orig : List V) (S : St V) : Closed C (Wanted C Alt orig S) :=
  ⟨fun _ h _ hm => .tgt h hm, fun n h m hm => .tgt h (hC.act n m hm), fun _ h _ hm => .pre h hm, fun _ h _ hm => .se h hm⟩

/-- Labels of ordinary builds in which `alter_targets()` answers only nodes in `Alt`. -/
def AltLab (C : Cfg V) (Alt : V → Prop) (_ : St V) (l : Lab V) : Prop :=
  l.noSE C ∧ ∀ alt scan pushed fate post, l = .consider alt scan pushed fate post → ∀ x ∈ alt, Alt x

/-- **C48.**  At every moment of a build, every node for which a task was handed out, that was found up to date, executed or failed — in short, that was
looked at at all — is a requested target (or what `alter_targets()` named in its place), or is connected to one by dependencies reported by scans, prerequisites,
co-targets or side effects.  Nothing else is built. -/
theorem C48_only_what_was_asked_for {C : Cfg V} {Alt : V → Prop} {orig : List V} {S : St V} (hp : Project C orig) (h : Reach C (AltLab C Alt) orig S) :
    (∀ x ∈ S.started, Wanted C Alt orig S x) ∧ (∀ x, S.state x ≠ .noState → Wanted C Alt orig S x) := by
  have key : Within (Wanted C Alt orig S) S ∧ Inv C orig S := by
    unfold Reach at h
    generalize hS0 : St.init orig = S0 at h
    induction h with
    | refl =>
      subst hS0
      refine ⟨⟨?_, ?_, ?_, ?_, ?_, ?_, ?_, ?_⟩, Inv.init hp.top⟩
      · intro x hx; simp [St.init] at hx
      · intro x hx; exact .top hx
      · intro x hx; simp [St.init] at hx
      · intro c x hx; simp [St.init] at hx
      · intro c x hx; simp [St.init] at hx
      · intro x hx; simp [St.init] at hx
      · intro x hx; simp [St.init] at hx
      · intro x hx; simp [St.init] at hx
    | @tail S1 S2 l h1 hl hs ih =>
      obtain ⟨i1, i2⟩ := ih
      refine ⟨?_, Inv.step hp.wf hp.iso i2 hl.1 hs⟩
      have hsm : ∀ x, S1.seen x ⊆ S2.seen x := seen_mono (fun n m hm => i2.seenPeer n m hm) hs
      have w : ∀ x, Wanted C Alt orig S1 x → Wanted C Alt orig S2 x := fun x hx => hx.mono hsm
      have i3 : Within (Wanted C Alt orig S2) S1 :=
        ⟨fun x hx => w x (i1.cands x hx), fun x hx => w x (i1.tops x hx), fun x hx => w x (i1.cur x hx), fun c x hx => w x (i1.wp c x hx),
          fun c x hx => w x (i1.wse c x hx), fun x hx => w x (i1.state x hx), fun x hx => w x (i1.started x hx), fun x hx => w x (i1.active x hx)⟩
      refine i3.step (Wanted.closed hp.wf Alt orig S2) ?_ hs
      cases l with
      | consider alt scan pushed fate post =>
        refine ⟨fun x hx => .alt (hl.2 _ _ _ _ _ rfl x hx), ?_⟩
        rintro S3 n kids hnc rfl hr hn x hx
        refine .dep hn ?_
        rcases step_seen hs with ⟨-, h2⟩ | ⟨alt', kids', pushed', fate', post', S3', n', e, hnc', h2⟩
        · exact absurd (h2 _ _ _ _ _ _ _ rfl hnc) (by omega)
        · injection e with e1 e2
          injection e2 with e2
          subst e1 e2
          rw [hnc] at hnc'
          simp only [Option.some.injEq, Prod.mk.injEq] at hnc'
          obtain ⟨rfl, rfl⟩ := hnc'
          rw [h2, updOn_apply, if_pos (hp.wf.self n)]
          simp [hx]
      | finish n res post => trivial
      | flush => trivial
      | interrupt => trivial
  exact ⟨key.1.started, key.1.state⟩

end Verif.TM
