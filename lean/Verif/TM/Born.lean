import Verif.TM.Mono2

/-! Third invariant: birth order of pending nodes (used to show that a cycle is never overlooked), and
"everything a scan reported has been visited". -/

set_option linter.unusedSectionVars false
set_option linter.unusedSimpArgs false
set_option linter.unusedVariables false

namespace Verif.TM
variable {V : Type} [DecidableEq V] [Fintype V]

/-- From `S` to `S'` no node is visited or put to wait; nodes only make progress. -/
structure Calm (C : Cfg V) (S S' : St V) : Prop where
  born : S'.born = S.born
  seen : S'.seen = S.seen
  stop : S'.stopped = false → S.stopped = false
  cands : S'.stopped = false → ∀ x ∈ S.cands, x ∈ S'.cands
  vis : ∀ x, ¬ C.isSE x → S.state x ≠ .noState → S'.state x ≠ .noState
  pend : ∀ x, S'.state x = .pending → S.state x = .pending
  wp : ∀ c x, x ∈ S'.wp c → x ∈ S.wp c ∧ (c ∈ S.pend → c ∈ S'.pend)

theorem Calm.refl (C : Cfg V) (S : St V) : Calm C S S :=
  ⟨rfl, rfl, id, fun _ _ h => h, fun _ _ h => h, fun _ h => h, fun _ _ h => ⟨h, id⟩⟩

theorem Calm.trans {C : Cfg V} {S S' S'' : St V} (h : Calm C S S') (h' : Calm C S' S'') : Calm C S S'' where
  born := h'.born.trans h.born
  seen := h'.seen.trans h.seen
  stop := fun h1 => h.stop (h'.stop h1)
  cands := fun h1 x hx => h'.cands h1 x (h.cands (h'.stop h1) x hx)
  vis := fun x h1 h2 => h'.vis x h1 (h.vis x h1 h2)
  pend := fun x hx => h.pend x (h'.pend x hx)
  wp := fun c x hx => ⟨(h.wp c x (h'.wp c x hx).1).1, fun h1 => (h'.wp c x hx).2 ((h.wp c x (h'.wp c x hx).1).2 h1)⟩

theorem Calm.postprocess {C : Cfg V} {S S' : St V} {ts post : List V}
    (hp : TM.postprocess C S ts post = some S') : Calm C S S' := by
  unfold TM.postprocess at hp
  simp only at hp
  split at hp
  case isFalse => cases hp
  injection hp with hp
  generalize hR : (ts.toFinset ∪ (C.ses ts).toFinset.filter
    (fun s => updOn S.state (fun s => s ∈ (C.ses ts).toFinset ∧ S.state s = NState.executing) .noState s = .noState)) = R at *
  have hst : ∀ x, S'.state x = if x ∈ (C.ses ts).toFinset ∧ S.state x = NState.executing then .noState else S.state x := by
    intro x; rw [← hp]; rfl
  constructor
  · rw [← hp]
  · rw [← hp]
  · rw [← hp]; exact id
  · rw [← hp]; intro _ x hx; simp [hx]
  · intro x hx h1; rw [hst, if_neg]
    · exact h1
    · rintro ⟨h2, _⟩; exact hx (isSE_of_ses (List.mem_toFinset.1 h2))
  · intro x hx; rw [hst] at hx; split at hx
    · cases hx
    · exact hx
  · intro c x hx
    rw [← hp] at hx ⊢
    simp only [updOn_apply] at hx
    split at hx
    · simp at hx
    · rename_i hc
      refine ⟨hx, fun h1 => ?_⟩
      simp only [Finset.mem_sdiff, Finset.mem_filter]
      exact ⟨h1, fun h2 => hc h2.1⟩

theorem Calm.executed {C : Cfg V} {S : St V} {ts : List V} : Calm C S (executed C S ts) := by
  constructor
  · rfl
  · rfl
  · exact id
  · exact fun _ _ h => h
  · intro x hx h1; rw [executed_state_nse hx]; split
    · simp
    · exact h1
  · intro x hx
    simp only [TM.executed] at hx
    split at hx
    · cases hx
    split at hx
    · cases hx
    · exact hx
  · exact fun _ _ h => ⟨h, id⟩

theorem Calm.wnb {C : Cfg V} {S : St V} {A : Finset V} {b : Bool} : Calm C S (willNotBuild S A b) := by
  constructor
  · rfl
  · rfl
  · exact id
  · exact fun _ _ h => h
  · intro x hx h1; cases b
    · exact h1
    · simp only [willNotBuild, if_true, updOn_apply]; split
      · simp
      · exact h1
  · intro x hx; cases b
    · exact hx
    · simp only [willNotBuild, if_true, updOn_apply] at hx; split at hx
      · cases hx
      · exact hx
  · intro c x hx
    simp only [willNotBuild, updOn_apply] at hx ⊢
    split at hx
    · simp at hx
    · rename_i hc
      exact ⟨hx, fun h1 => Finset.mem_sdiff.2 ⟨h1, hc⟩⟩

theorem Calm.failTask {C : Cfg V} {S S' : St V} {ts post : List V} {m : FailMode}
    (hp : TM.failTask C S ts m post = some S') : Calm C S S' := by
  have h0 : Calm C S { S with failedTasks := S.failedTasks ∪ ts.toFinset } :=
    ⟨rfl, rfl, id, fun _ _ h => h, fun _ _ h => h, fun _ h => h, fun _ _ h => ⟨h, id⟩⟩
  unfold TM.failTask at hp
  cases m <;> simp only at hp
  · refine Calm.trans (Calm.trans h0 (Calm.wnb (A := ts.toFinset) (b := true))) (Calm.trans ?_ (Calm.postprocess hp))
    exact ⟨rfl, rfl, by simp, by simp, fun _ _ h => h, fun _ h => h, fun _ _ h => ⟨h, id⟩⟩
  · exact (h0.trans .wnb).trans (.postprocess hp)
  · exact (h0.trans .executed).trans (.postprocess hp)

theorem Calm.makeReady {C : Cfg V} {S : St V} {ts : List V} {b : Bool} : Calm C S (makeReady C S ts b) := by
  cases b
  all_goals
    refine ⟨rfl, rfl, id, fun _ _ h => h, ?_, ?_, fun _ _ h => ⟨h, id⟩⟩
    · intro x hx h1
      simp only [TM.makeReady, if_true, Bool.false_eq_true, if_false, updOn_apply]; split
      · simp
      · exact h1
    · intro x hx
      simp only [TM.makeReady, if_true, Bool.false_eq_true, if_false, updOn_apply] at hx; split at hx
      · cases hx
      · exact hx

theorem Calm.handOut {C : Cfg V} {S S' : St V} {n : V} {fate : Fate} {post : List V}
    (hh : TM.handOut C S n fate post = some S') : Calm C S S' := by
  unfold TM.handOut at hh
  cases fate with
  | exc m => exact .failTask hh
  | excReady b m => exact Calm.trans .makeReady (.failTask hh)
  | internal res =>
    cases res with
    | none => exact (Calm.trans .makeReady .executed).trans (.postprocess hh)
    | some m => exact Calm.trans .makeReady (.failTask hh)
  | start =>
    simp only [Option.some.injEq] at hh
    rw [← hh]
    exact Calm.trans (.makeReady (ts := C.targets n) (b := true))
      ⟨rfl, rfl, id, fun _ _ h => h, fun _ _ h => h, fun _ h => h, fun _ _ h => ⟨h, id⟩⟩

structure BInv (C : Cfg V) (S : St V) (K : Nat) (Q : V → Prop) : Prop where
  b1 : ∀ x, S.born x ≤ K
  b2 : ∀ c x, x ∈ S.wp c → S.state c = .pending → c ∈ S.pend ∨ S.born x < S.born c
  b3 : ∀ c x, x ∈ S.wp c → S.state x ≠ .noState
  b4 : S.stopped = false → ∀ y c, c ∈ S.seen y → c ∈ S.cands ∨ S.state c ≠ .noState ∨ Q c

theorem BInv.calm {C : Cfg V} {S S' : St V} {K : Nat} {Q : V → Prop} (h : BInv C S K Q) (hc : Calm C S S')
    (hw : ∀ c x, x ∈ S.wp c → ¬ C.isSE x) (hs : ∀ x c, c ∈ S.seen x → ¬ C.isSE c) : BInv C S' K Q := by
  constructor
  · rw [hc.born]; exact h.b1
  · intro c x hx h1
    obtain ⟨h2, h3⟩ := hc.wp c x hx
    rw [hc.born]
    exact (h.b2 c x h2 (hc.pend c h1)).imp_left h3
  · intro c x hx
    have h2 := (hc.wp c x hx).1
    exact hc.vis x (hw c x h2) (h.b3 c x h2)
  · intro h0 y c h1
    rw [hc.seen] at h1
    rcases h.b4 (hc.stop h0) y c h1 with h2 | h2 | h2
    · exact Or.inl (hc.cands h0 c h2)
    · exact Or.inr (Or.inl (hc.vis c (hs y c h1) h2))
    · exact Or.inr (Or.inr h2)

theorem nextCandidate_more {S S1 : St V} {alt : List V} {n : V} (hnc : nextCandidate S alt = some (S1, n)) :
    S1.born = S.born ∧ S1.pend = S.pend ∧ S1.stopped = S.stopped ∧ S1.clock = S.clock ∧ S1.wse = S.wse
    ∧ ∀ x ∈ S.cands, x ∈ S1.cands ∨ x = n := by
  unfold nextCandidate at hnc; split at hnc
  · rename_i h; simp only [Option.some.injEq, Prod.mk.injEq] at hnc; rw [← hnc.1, ← hnc.2, h]
    refine ⟨rfl, rfl, rfl, rfl, rfl, ?_⟩
    intro x hx; exact (List.mem_cons.1 hx).symm
  · rename_i h
    split at hnc
    · cases hnc
    · simp only at hnc; split at hnc
      · simp only [Option.some.injEq, Prod.mk.injEq] at hnc; rw [← hnc.1, h]
        exact ⟨rfl, rfl, rfl, rfl, rfl, by simp⟩
      · cases hnc

theorem BInv.nextCandidate {C : Cfg V} {S S1 : St V} {alt : List V} {n : V} {K : Nat} (h : BInv C S K (fun _ => False))
    (hnc : nextCandidate S alt = some (S1, n)) : BInv C S1 K (· = n) := by
  obtain ⟨g1, g2, g3, g4, g5, g6⟩ := nextCandidate_fields hnc
  obtain ⟨k1, k2, k3, k4, k5, k6⟩ := nextCandidate_more hnc
  constructor
  · rw [k1]; exact h.b1
  · rw [k1, k2, g1, g2]; exact h.b2
  · rw [g1, g2]; exact h.b3
  · rw [k3, g4, g1]; intro h0 y c hc
    rcases h.b4 h0 y c hc with h2 | h2 | h2
    · rcases k6 c h2 with h3 | h3
      · exact Or.inl h3
      · exact Or.inr (Or.inr h3)
    · exact Or.inr (Or.inl h2)
    · exact h2.elim

theorem BInv.setPending {C : Cfg V} {S : St V} {n : V} (h : BInv C S S.clock (· = n)) (hr : (S.state n).rank ≤ 1) :
    BInv C (markPending S n) (S.clock + 1) (fun _ => False) := by
  have hst : ∀ x, (markPending S n).state x = if x = n then .pending else S.state x := fun x => rfl
  have hb : (markPending S n).born = if S.state n = .noState then upd S.born n (S.clock + 1) else S.born := rfl
  have hbn : ∀ x, S.state x ≠ .noState → (markPending S n).born x = S.born x := by
    intro x hx; rw [hb]; split
    · rename_i h1; rw [upd, if_neg]; rintro rfl; exact hx h1
    · rfl
  constructor
  · intro x; rw [hb]; have := h.b1 x
    split
    · rw [upd]; split <;> omega
    · omega
  · intro c x hx hc
    have hx' : x ∈ S.wp c := hx
    have hx0 := h.b3 c x hx'
    rw [hbn x hx0]
    by_cases h0 : S.state c = .noState
    · right
      rw [hst] at hc; split at hc
      · rename_i hcn; subst hcn
        rw [hb, if_pos h0, upd, if_pos rfl]
        have := h.b1 x; omega
      · rw [h0] at hc; cases hc
    · rw [hbn c h0]
      have hcp : S.state c = .pending := by
        rw [hst] at hc; split at hc
        · rename_i hcn; subst hcn
          cases hs : S.state c <;> simp_all [NState.rank]
        · exact hc
      exact h.b2 c x hx' hcp
  · intro c x hx
    have := h.b3 c x hx
    rw [hst]; split
    · simp
    · exact this
  · intro h0 y c hc
    rcases h.b4 h0 y c hc with h2 | h2 | h2
    · exact Or.inl h2
    · right; left; rw [hst]; split
      · simp
      · exact h2
    · right; left; rw [hst, if_pos h2]; simp

theorem BInv.push {C : Cfg V} {S : St V} {n : V} {K : Nat} {all pushed : List V} (h : BInv C S K (fun _ => False))
    (hp : pushed.toFinset = (all.filter (fun c => S.state c = .noState)).toFinset) :
    BInv C (pushKids C S n all pushed) K (fun _ => False) := by
  constructor
  · exact h.b1
  · exact h.b2
  · exact h.b3
  · intro h0 y c hc
    have hold : c ∈ S.cands ∨ S.state c ≠ .noState → c ∈ (pushKids C S n all pushed).cands ∨ S.state c ≠ .noState ∨ False := by
      rintro (h1 | h1)
      · left; simp [pushKids, h1]
      · exact Or.inr (Or.inl h1)
    have hb4 : ∀ y, c ∈ S.seen y → c ∈ S.cands ∨ S.state c ≠ .noState := by
      intro y h1; rcases h.b4 h0 y c h1 with h2 | h2 | h2
      · exact Or.inl h2
      · exact Or.inr h2
      · exact h2.elim
    simp only [pushKids, updOn_apply] at hc
    split at hc
    · rcases Finset.mem_union.1 hc with h1 | h1
      · exact hold (hb4 n h1)
      · by_cases h2 : S.state c = .noState
        · left
          have : c ∈ pushed := by
            rw [← List.mem_toFinset, hp]; simp only [List.mem_toFinset, List.mem_filter, decide_eq_true_eq]
            exact ⟨List.mem_toFinset.1 h1, h2⟩
          simp [pushKids, this]
        · exact Or.inr (Or.inl h2)
    · exact hold (hb4 y hc)

theorem BInv.judge {C : Cfg V} {S : St V} {n : V} {K : Nat} {all : List V} (h : BInv C S K (fun _ => False))
    (hn : S.state n ≠ .noState) : BInv C (judge C S n all).1 K (fun _ => False) := by
  unfold TM.judge
  split
  · have hst : ∀ x, (updOn S.state (· ∈ C.actTargets n) NState.failed) x = S.state x ∨
      (updOn S.state (· ∈ C.actTargets n) NState.failed) x = .failed := by
      intro x; simp only [updOn_apply]; split
      · exact Or.inr rfl
      · exact Or.inl rfl
    constructor
    · exact h.b1
    · intro c x hx hc
      refine h.b2 c x hx ?_
      rcases hst c with h1 | h1
      · exact h1 ▸ hc
      · exact absurd (h1.symm.trans hc) (by simp)
    · intro c x hx
      simp only; rcases hst x with h1 | h1
      · rw [h1]; exact h.b3 c x hx
      · rw [h1]; simp
    · intro h0 y c hc
      rcases h.b4 h0 y c hc with h2 | h2 | h2
      · exact Or.inl h2
      · right; left
        simp only; rcases hst c with h1 | h1
        · rw [h1]; exact h2
        · rw [h1]; simp
      · exact h2.elim
  · simp only
    split
    · obtain ⟨f1, f2, f3, f4, f5, f6, f7, f8, f9, f10, f11, f12, f13⟩ :=
        addWaiting_fields n (all.filter (fun c => (S.state c).rank ≤ 2)) S
      constructor
      · simp only [f12]; exact h.b1
      · intro c x hx hc
        simp only [f1] at hc
        simp only [f6, f12]
        simp only [addWaiting_wp] at hx
        split at hx
        · rename_i h1
          rcases Finset.mem_insert.1 hx with h2 | h2
          · left; refine Finset.mem_union.2 (Or.inr ?_)
            simp only [List.mem_toFinset, List.mem_filter, decide_eq_true_eq]
            exact ⟨(List.mem_filter.1 h1).1, hc⟩
          · exact (h.b2 c x h2 hc).imp_left (fun h3 => Finset.mem_union.2 (Or.inl h3))
        · exact (h.b2 c x hx hc).imp_left (fun h3 => Finset.mem_union.2 (Or.inl h3))
      · intro c x hx
        simp only [f1]
        simp only [addWaiting_wp] at hx
        split at hx
        · rcases Finset.mem_insert.1 hx with h2 | h2
          · rw [h2]; exact hn
          · exact h.b3 c x h2
        · exact h.b3 c x hx
      · simp only [f1, f3, f7, f11]; exact h.b4
    · split
      · exact ⟨h.b1, h.b2, h.b3, h.b4⟩
      · exact h

theorem BInv.considerNode {C : Cfg V} {S S' : St V} {n : V} {scan : Scan V} {pushed : List V} {o : Outcome}
    (h : BInv C S S.clock (· = n)) (hc : TM.considerNode C S n scan pushed = some (S', o)) :
    BInv C S' (S.clock + 1) (fun _ => False) := by
  unfold TM.considerNode at hc
  split at hc
  · rename_i hr
    simp only [Option.some.injEq, Prod.mk.injEq] at hc; rw [← hc.1]
    refine ⟨fun x => (h.b1 x).trans (Nat.le_succ _), h.b2, h.b3, ?_⟩
    intro h0 y c h1
    rcases h.b4 h0 y c h1 with h2 | h2 | h2
    · exact Or.inl h2
    · exact Or.inr (Or.inl h2)
    · right; left; rw [h2]; intro h3; rw [h3] at hr; simp [NState.rank] at hr
  · rename_i hr
    have h1 := h.setPending (by omega)
    split at hc
    · simp only [Option.some.injEq, Prod.mk.injEq] at hc; rw [← hc.1]; exact h1
    · simp only at hc
      split at hc
      · rename_i hp
        simp only [Option.some.injEq] at hc
        have h3 := congrArg Prod.fst hc
        simp only at h3
        rw [← h3]
        refine (h1.push hp).judge ?_
        show (markPending S n).state n ≠ .noState
        simp [markPending, upd]
      · cases hc

theorem considerNode_clock {C : Cfg V} {S S' : St V} {n : V} {scan : Scan V} {pushed : List V} {o : Outcome}
    (hc : TM.considerNode C S n scan pushed = some (S', o)) : S'.clock = S.clock := by
  unfold TM.considerNode at hc
  split at hc
  · simp only [Option.some.injEq, Prod.mk.injEq] at hc; rw [← hc.1]
  · split at hc
    · simp only [Option.some.injEq, Prod.mk.injEq] at hc; rw [← hc.1]; rfl
    · simp only at hc
      split at hc
      · simp only [Option.some.injEq] at hc
        have h3 := congrArg Prod.fst hc
        simp only at h3
        rw [← h3]
        unfold judge
        split
        · rfl
        · simp only; split
          · simp only; rw [(addWaiting_fields _ _ _).2.2.2.2.2.2.2.2.2.2.2.2]; rfl
          · split <;> rfl
      · cases hc

theorem handOut_clock {C : Cfg V} {S S' : St V} {n : V} {fate : Fate} {post : List V}
    (h : handOut C S n fate post = some S') : S'.clock = S.clock := by
  unfold handOut at h
  cases fate with
  | exc m => exact (failTask_fields h).2.2.2.2.2.2
  | excReady b m => rw [(failTask_fields h).2.2.2.2.2.2]; cases b <;> rfl
  | internal res =>
    cases res with
    | none => rw [(postprocess_failedTasks h).2.2.2.2.2.2]; rfl
    | some m => rw [(failTask_fields h).2.2.2.2.2.2]; rfl
  | start => simp only [Option.some.injEq] at h; rw [← h]; rfl

theorem BInv.step {C : Cfg V} {orig : List V} {S S' : St V} {l : Lab V} (hC : C.WF) (hI : C.SEIso)
    (hi : Inv C orig S) (h : BInv C S S.clock (fun _ => False)) (hl : l.noSE C) (hs : TM.step C S l = some S') :
    BInv C S' S'.clock (fun _ => False) := by
  cases l with
  | consider alt scan pushed fate post =>
    simp only [TM.step] at hs
    split at hs
    · cases hs
    split at hs
    · cases hs
    rename_i S1 n hnc
    obtain ⟨h1i, hn⟩ := InvE.nextCandidate hi hl.1 hnc
    obtain ⟨k1, k2, k3, k4, k5, k6⟩ := nextCandidate_more hnc
    have h1 : BInv C S1 S1.clock (· = n) := k4 ▸ h.nextCandidate hnc
    split at hs
    · cases hs
    · rename_i S2 hcn
      have h2 := h1.considerNode hcn
      have hck := considerNode_clock hcn
      simp only [Option.some.injEq] at hs
      rw [← hs]
      show BInv C _ (S2.clock + 1) _
      rw [hck]
      exact ⟨h2.b1, h2.b2, h2.b3, h2.b4⟩
    · rename_i S2 hcn
      have h2i := h1i.considerNode hC hI hn hl.2 hcn
      simp only [reduceCtorEq, if_false, ne_eq, not_false_eq_true, true_implies] at h2i
      have h2 := h1.considerNode hcn
      have hck := considerNode_clock hcn
      split at hs
      · rw [Option.map_eq_some_iff] at hs
        obtain ⟨S3, hS3, rfl⟩ := hs
        have h3 := h2.calm (.handOut hS3) h2i.1.seWp' h2i.1.seenSE
        show BInv C _ (S3.clock + 1) _
        rw [handOut_clock hS3, hck]
        exact ⟨h3.b1, h3.b2, h3.b3, h3.b4⟩
      · cases hs
    · rename_i S2 hcn
      have h2i := h1i.considerNode hC hI hn hl.2 hcn
      simp only [reduceCtorEq, if_false, ne_eq, not_false_eq_true, true_implies] at h2i
      have h2 := h1.considerNode hcn
      have hck := considerNode_clock hcn
      rw [Option.map_eq_some_iff] at hs
      obtain ⟨S3, hS3, rfl⟩ := hs
      have h3 := h2.calm (.handOut hS3) h2i.1.seWp' h2i.1.seenSE
      show BInv C _ (S3.clock + 1) _
      rw [handOut_clock hS3, hck]
      exact ⟨h3.b1, h3.b2, h3.b3, h3.b4⟩
  | finish n res post =>
    simp only [TM.step] at hs
    split at hs
    case isFalse => cases hs
    have h1 : BInv C { S with active := S.active.erase n, clock := S.clock + 1 } (S.clock + 1) (fun _ => False) :=
      ⟨fun x => (h.b1 x).trans (Nat.le_succ _), h.b2, h.b3, h.b4⟩
    split at hs
    · rw [(postprocess_failedTasks hs).2.2.2.2.2.2]
      exact h1.calm (Calm.trans .executed (.postprocess hs)) hi.seWp' hi.seenSE
    · rw [(failTask_fields hs).2.2.2.2.2.2]
      exact h1.calm (.failTask hs) hi.seWp' hi.seenSE
  | flush =>
    simp only [TM.step] at hs
    split at hs
    case isFalse => cases hs
    rename_i hst
    simp only [Option.some.injEq] at hs
    rw [← hs]
    have h1 : BInv C { S with cands := [] } (S.clock + 1) (fun _ => False) :=
      ⟨fun x => (h.b1 x).trans (Nat.le_succ _), h.b2, h.b3, fun h0 => by simp [hst] at h0⟩
    have h2 := h1.calm (.wnb (A := S.cands.toFinset) (b := false)) hi.seWp' hi.seenSE
    exact ⟨h2.b1, h2.b2, h2.b3, h2.b4⟩
  | interrupt =>
    simp only [TM.step, Option.some.injEq] at hs
    rw [← hs]
    exact ⟨fun x => (h.b1 x).trans (Nat.le_succ _), h.b2, h.b3, fun h0 => by simp at h0⟩

theorem BInv.init {C : Cfg V} {orig : List V} : BInv C (St.init orig) 0 (fun _ => False) := by
  constructor <;> simp [St.init]

end Verif.TM
