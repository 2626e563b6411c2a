import Verif.TM.SideEff

/-! Fifth invariant: in runs whose failures (if any) stop the build, `pending_children` is cleaned up. -/

set_option linter.unusedSectionVars false
set_option linter.unusedSimpArgs false
set_option linter.unusedVariables false

namespace Verif.TM
variable {V : Type} [DecidableEq V] [Fintype V]

/-- how a fate fails, if it does -/
def Fate.failure : Fate → Option FailMode
  | .exc m => some m
  | .excReady _ m => some m
  | .internal r => r
  | .start => none

/-- every failure in the label is handled in stop mode (no `-k`, no `-i`) -/
def Lab.stopOnly : Lab V → Prop
  | .consider _ _ _ fate _ => ∀ m ∈ fate.failure, m = .stop
  | .finish _ res _ => ∀ m ∈ res, m = .stop
  | _ => True

/-- the label contains no failure (a raising scan is one; unused failing fates are excluded as well) -/
def Lab.noFail : Lab V → Prop
  | .consider _ scan _ fate _ => scan ≠ .raised ∧ fate.failure = none
  | .finish _ res _ => res = none
  | _ => True

structure PInv (C : Cfg V) (S : St V) : Prop where
  ft : S.stopped = false → S.failedTasks = ∅
  nf : S.stopped = false → ∀ x, S.state x ≠ .failed
  pd : ∀ x ∈ S.pend, S.wp x ≠ ∅ ∧ S.state x ≠ .noState ∧ ¬ C.isSE x
  fl : ∀ x, S.state x = .failed → S.wp x = ∅
  se : ∀ s, C.isSE s → S.state s = .executing → ∃ n ∈ S.active, s ∈ C.ses (C.targets n)
  w : S.stopped = true → ∀ x, S.state x = .pending → S.wp x ≠ ∅ →
    x ∈ S.cands ∨ (∃ c, x ∈ S.wp c) ∨ (∃ s, x ∈ S.wse s ∧ S.state s = .executing)
  fr : S.stopped = true → ∀ c, S.wp c ≠ ∅ → S.state c = .noState → c ∈ S.cands

/-- `pending_children` only shrinks, and what stays keeps its waiting parents -/
structure CalmP (S S' : St V) : Prop where
  pend : ∀ x ∈ S'.pend, x ∈ S.pend ∧ S'.wp x = S.wp x
  fail : ∀ x, S'.state x = .failed → (S.state x = .failed ∧ S'.wp x ⊆ S.wp x) ∨ S'.wp x = ∅

theorem CalmP.trans {S S' S'' : St V} (h : CalmP S S') (h' : CalmP S' S'') : CalmP S S'' where
  pend := fun x hx => ⟨(h.pend x (h'.pend x hx).1).1, (h'.pend x hx).2.trans (h.pend x (h'.pend x hx).1).2⟩
  fail := by
    intro x hx
    rcases h'.fail x hx with ⟨h1, h2⟩ | h1
    · rcases h.fail x h1 with ⟨h3, h4⟩ | h3
      · exact Or.inl ⟨h3, h2.trans h4⟩
      · right; rw [h3] at h2; exact Finset.subset_empty.1 h2
    · exact Or.inr h1

theorem CalmP.of {S S' : St V} (h1 : S'.pend = S.pend) (h2 : S'.wp = S.wp)
    (h3 : ∀ x, S'.state x = .failed → S.state x = .failed) : CalmP S S' :=
  ⟨fun x hx => ⟨h1 ▸ hx, by rw [h2]⟩, fun x hx => Or.inl ⟨h3 x hx, by rw [h2]⟩⟩

theorem CalmP.postprocess {C : Cfg V} {S S' : St V} {ts post : List V}
    (hp : TM.postprocess C S ts post = some S') : CalmP S S' := by
  unfold TM.postprocess at hp
  simp only at hp
  split at hp
  case isFalse => cases hp
  injection hp with hp
  generalize hR : (ts.toFinset ∪ (C.ses ts).toFinset.filter
    (fun s => updOn S.state (fun s => s ∈ (C.ses ts).toFinset ∧ S.state s = NState.executing) .noState s = .noState)) = R at *
  constructor
  · intro x hx
    rw [← hp] at hx ⊢
    simp only [Finset.mem_sdiff, Finset.mem_filter, not_and, not_not] at hx
    refine ⟨hx.1, ?_⟩
    simp only [updOn_apply]; split
    · rename_i h1; exact (hx.2 h1).symm
    · rfl
  · intro x hx
    rw [← hp] at hx ⊢
    left
    simp only [updOn_apply] at hx ⊢
    refine ⟨?_, ?_⟩
    · split at hx
      · cases hx
      · exact hx
    · split
      · exact Finset.empty_subset _
      · exact Finset.Subset.refl _

theorem CalmP.executed {C : Cfg V} {S : St V} {ts : List V} : CalmP S (executed C S ts) := by
  refine .of rfl rfl ?_
  intro x hx
  simp only [TM.executed] at hx
  split at hx
  · cases hx
  split at hx
  · cases hx
  · exact hx

theorem CalmP.wnb {S : St V} {A : Finset V} {b : Bool} : CalmP S (willNotBuild S A b) := by
  constructor
  · intro x hx
    simp only [willNotBuild, Finset.mem_sdiff] at hx ⊢
    exact ⟨hx.1, by rw [updOn_apply, if_neg hx.2]⟩
  · intro x hx
    by_cases h : x ∈ upSet S.wp A
    · right; simp only [willNotBuild, updOn_apply, if_pos h]
    · left
      refine ⟨?_, ?_⟩
      · cases b
        · exact hx
        · simpa only [willNotBuild, if_true, updOn_apply, if_neg h] using hx
      · simp only [willNotBuild, updOn_apply, if_neg h]; exact Finset.Subset.refl _

theorem CalmP.failTask {C : Cfg V} {S S' : St V} {ts post : List V} {m : FailMode}
    (hp : TM.failTask C S ts m post = some S') : CalmP S S' := by
  have h0 : CalmP S { S with failedTasks := S.failedTasks ∪ ts.toFinset } := .of rfl rfl (fun _ h => h)
  unfold TM.failTask at hp
  cases m <;> simp only at hp
  · refine CalmP.trans (CalmP.trans h0 (CalmP.wnb (A := ts.toFinset) (b := true))) (CalmP.trans ?_ (CalmP.postprocess hp))
    exact .of rfl rfl (fun _ h => h)
  · exact (h0.trans .wnb).trans (.postprocess hp)
  · exact (h0.trans (.executed (C := C))).trans (.postprocess hp)

theorem CalmP.makeReady {C : Cfg V} {S : St V} {ts : List V} {b : Bool} : CalmP S (makeReady C S ts b) := by
  cases b
  all_goals
    refine .of rfl rfl ?_
    intro x hx
    simp only [TM.makeReady, if_true, Bool.false_eq_true, if_false, updOn_apply] at hx; split at hx
    · cases hx
    · exact hx

theorem CalmP.handOut {C : Cfg V} {S S' : St V} {n : V} {fate : Fate} {post : List V}
    (hh : TM.handOut C S n fate post = some S') : CalmP S S' := by
  unfold TM.handOut at hh
  cases fate with
  | exc m => exact .failTask hh
  | excReady b m => exact CalmP.trans (.makeReady (C := C)) (.failTask hh)
  | internal res =>
    cases res with
    | none => exact (CalmP.trans (.makeReady (C := C)) (.executed (C := C))).trans (.postprocess hh)
    | some m => exact CalmP.trans (.makeReady (C := C)) (.failTask hh)
  | start =>
    simp only [Option.some.injEq] at hh
    rw [← hh]
    exact CalmP.trans (.makeReady (C := C) (ts := C.targets n) (b := true)) (.of rfl rfl (fun _ h => h))

/-- everything that is pending and waited for is itself scheduled or waiting -/
def Waits (C : Cfg V) (S : St V) (E : V → Prop) (ts : List V) : Prop :=
  ∀ x, S.state x = .pending → S.wp x ≠ ∅ →
    x ∈ S.cands ∨ (∃ c, x ∈ S.wp c) ∨ (∃ s, x ∈ S.wse s ∧ (S.state s = .executing ∨ s ∈ C.ses ts)) ∨ E x

theorem Waits.postprocess {C : Cfg V} {S S' : St V} {ts post : List V} (href : ∀ p, S.ref p = cnt S.wp p)
    (h : Waits C S (fun _ => False) ts) (hp : TM.postprocess C S ts post = some S') : Waits C S' (fun _ => False) [] := by
  have hcalm : Calm C S S' := .postprocess hp
  unfold TM.postprocess at hp
  simp only at hp
  split at hp
  case isFalse => cases hp
  case isTrue hpost =>
  injection hp with hp
  generalize hR : (ts.toFinset ∪ (C.ses ts).toFinset.filter
    (fun s => updOn S.state (fun s => s ∈ (C.ses ts).toFinset ∧ S.state s = NState.executing) .noState s = .noState)) = R at *
  have hwp : ∀ c, S'.wp c = if c ∈ R then ∅ else S.wp c := by intro c; rw [← hp]; rfl
  have hcands : S'.cands = post.reverse ++ S.cands := by rw [← hp]
  have href' : ∀ p, S'.ref p = cnt S'.wp p := by
    intro p; rw [← hp]; simp only; rw [cnt_clear, href]
  have hpostmem : ∀ p, p ∈ post ↔ ((∃ s ∈ C.ses ts, p ∈ S.wse s) ∧ S.ref p = 0) ∨
      ((∃ c ∈ R, p ∈ S.wp c) ∧ S'.ref p = 0) := by
    intro p
    rw [← List.mem_toFinset, hpost, ← hp]
    simp only [Finset.mem_union, Finset.mem_filter, Finset.mem_biUnion, List.mem_toFinset]
  have hin : ∀ p ∈ post, p ∈ S'.cands := fun p hp => by rw [hcands]; simp [hp]
  have hw : ∀ x, (∃ c, x ∈ S.wp c) → x ∈ S'.cands ∨ ∃ c, x ∈ S'.wp c := by
    rintro x ⟨c, hc⟩
    by_cases hcR : c ∈ R
    · by_cases h0 : S'.ref x = 0
      · left; exact hin x ((hpostmem x).2 (Or.inr ⟨⟨c, hcR, hc⟩, h0⟩))
      · right; exact cnt_ne_zero (by rw [← href']; exact h0)
    · right; exact ⟨c, by rw [hwp, if_neg hcR]; exact hc⟩
  intro x hx hwx
  have hx0 := hcalm.pend x hx
  have hwx0 : S.wp x ≠ ∅ := by
    intro h1; apply hwx; rw [hwp, h1]; simp
  have hses : x ∈ S'.cands ∨ (∃ c, x ∈ S'.wp c) ∨ (∃ s, x ∈ S'.wse s ∧ (S'.state s = .executing ∨ s ∈ C.ses [])) ∨ False := by
    rcases h x hx0 hwx0 with h1 | h1 | ⟨s, hs, h1⟩ | h1
    · left; rw [hcands]; simp [h1]
    · exact (hw x h1).imp_right Or.inl
    · by_cases hst : s ∈ C.ses ts
      · by_cases h0 : S.ref x = 0
        · left; exact hin x ((hpostmem x).2 (Or.inl ⟨⟨s, hst, hs⟩, h0⟩))
        · rcases hw x (cnt_ne_zero (by rw [← href]; exact h0)) with h3 | h3
          · exact Or.inl h3
          · exact Or.inr (Or.inl h3)
      · right; right; left
        refine ⟨s, by rw [← hp]; exact hs, Or.inl ?_⟩
        rw [← hp]; simp only [updOn_apply]; rw [if_neg]
        · exact h1.resolve_right hst
        · rintro ⟨h2, _⟩; exact hst (List.mem_toFinset.1 h2)
    · exact h1.elim
  exact hses

theorem Waits.executed {C : Cfg V} {S : St V} {E : V → Prop} {ts : List V} (hwse : ∀ s x, x ∈ S.wse s → C.isSE s)
    (hts : ∀ x ∈ ts, ¬ C.isSE x)
    (h : Waits C S E ts) : Waits C (executed C S ts) E ts := by
  intro x hx hwx
  have hx0 := (Calm.executed (C := C) (S := S) (ts := ts)).pend x hx
  rcases h x hx0 hwx with h1 | h1 | ⟨s, hs, h1⟩ | h1
  · exact Or.inl h1
  · exact Or.inr (Or.inl h1)
  · refine Or.inr (Or.inr (Or.inl ⟨s, hs, ?_⟩))
    by_cases h2 : s ∈ C.ses ts
    · exact Or.inr h2
    · left
      rcases SEkeep.executed (S := S) hts s (hwse s x hs) h2 with h3 | h3
      · rw [h3]; exact h1.resolve_right h2
      · rcases executed_state_se (S := S) hts (hwse s x hs) with h4 | h4
        · rw [h4] at h3; cases h3
        · rw [h4]; exact h1.resolve_right h2
  · exact Or.inr (Or.inr (Or.inr h1))

/-- after `will_not_build` nothing in the removed set matters any more -/
theorem Waits.wnb {C : Cfg V} {S : St V} {E : V → Prop} {A : Finset V} {b : Bool} (hno : b = true → ∀ s, ¬ C.isSE s)
    (hwse : ∀ s x, x ∈ S.wse s → C.isSE s)
    (h : Waits C S (fun x => E x ∨ x ∈ A) []) (hE : ∀ x, E x → x ∈ A) : Waits C (willNotBuild S A b) (fun _ => False) [] := by
  have hcl := upSet_closed S.wp A
  have hsub := subset_upSet S.wp A
  intro x hx hwx
  have hx0 := (Calm.wnb (C := C) (S := S) (A := A) (b := b)).pend x hx
  have hxU : x ∉ upSet S.wp A := by
    intro h1; apply hwx; simp only [willNotBuild, updOn_apply, if_pos h1]
  have hwx0 : S.wp x ≠ ∅ := by
    intro h1; apply hwx; simp only [willNotBuild, updOn_apply, h1]; split <;> rfl
  rcases h x hx0 hwx0 with h1 | ⟨c, h1⟩ | ⟨s, hs, h1⟩ | h1
  · exact Or.inl h1
  · right; left
    refine ⟨c, ?_⟩
    simp only [willNotBuild, updOn_apply]
    rw [if_neg (fun h2 => hxU (hcl c h2 x h1))]; exact h1
  · right; right; left
    refine ⟨s, hs, ?_⟩
    cases b
    · exact h1
    · exact absurd (hwse s x hs) (hno rfl s)
  · exact absurd (hsub (h1.elim (hE x) id)) hxU

/-- An unvisited node that is waited for is a candidate. -/
def Fresh (S : St V) : Prop := ∀ c, S.wp c ≠ ∅ → S.state c = .noState → c ∈ S.cands

theorem Fresh.of_calm {C : Cfg V} {S S' : St V} (h : Fresh S) (hc : Calm C S S') (hse : ∀ s, C.isSE s → S.wp s = ∅)
    (hcd : ∀ x ∈ S.cands, x ∈ S'.cands) : Fresh S' := by
  intro c hw h0
  obtain ⟨x, hx⟩ := Finset.nonempty_iff_ne_empty.2 hw
  have h1 := (hc.wp c x hx).1
  have hn : ¬ C.isSE c := by intro h2; rw [hse c h2] at h1; simp at h1
  refine hcd c (h c (Finset.nonempty_iff_ne_empty.1 ⟨x, h1⟩) ?_)
  by_contra h2; exact hc.vis c hn h2 h0

theorem postprocess_cands {C : Cfg V} {S S' : St V} {ts post : List V} (hp : TM.postprocess C S ts post = some S') :
    ∀ x ∈ S.cands, x ∈ S'.cands := by
  unfold TM.postprocess at hp
  simp only at hp
  split at hp
  case isFalse => cases hp
  injection hp with hp
  intro x hx; rw [← hp]; simp [hx]

theorem failTask_cands {C : Cfg V} {S S' : St V} {ts post : List V} {m : FailMode}
    (hp : TM.failTask C S ts m post = some S') : ∀ x ∈ S.cands, x ∈ S'.cands := by
  unfold TM.failTask at hp
  cases m <;> simp only at hp <;> intro x hx <;> refine postprocess_cands hp x ?_
  all_goals
    simp only [willNotBuild, executed]
    exact hx

/-- a failure that stops the build, without side effects -/
theorem failStop_waits {C : Cfg V} {S S' : St V} {ts post : List V} {E : V → Prop} (hno : ∀ s, ¬ C.isSE s)
    (href : ∀ p, S.ref p = cnt S.wp p) (hwse : ∀ s x, x ∈ S.wse s → C.isSE s)
    (h : Waits C S E []) (hE : ∀ x, E x → x ∈ ts)
    (hp : TM.failTask C S ts .stop post = some S') : Waits C S' (fun _ => False) [] := by
  unfold TM.failTask at hp
  simp only at hp
  have h0 : Waits C { S with failedTasks := S.failedTasks ∪ ts.toFinset } (fun x => E x ∨ x ∈ ts.toFinset) [] := by
    intro x hx hw
    rcases h x hx hw with h1 | h1 | h1 | h1
    · exact Or.inl h1
    · exact Or.inr (Or.inl h1)
    · exact Or.inr (Or.inr (Or.inl h1))
    · exact Or.inr (Or.inr (Or.inr (Or.inl h1)))
  have h1 := Waits.wnb (b := true) (fun _ => hno) hwse h0 (fun x hx => List.mem_toFinset.2 (hE x hx))
  refine Waits.postprocess ?_ ?_ hp
  · intro p
    simp only [willNotBuild]; rw [cnt_clear, href]
  · intro x hx hw
    rcases h1 x hx hw with h2 | h2 | ⟨s, hs, h2⟩ | h2
    · exact Or.inl h2
    · exact Or.inr (Or.inl h2)
    · exact absurd (hwse s x hs) (hno s)
    · exact h2.elim

/-- what the main invariant says about waiting, in a walk that was not stopped and has no failures -/
theorem InvE.waits {C : Cfg V} {orig : List V} {S : St V} {E : V → Prop} (hi : InvE C orig S E (fun _ => False))
    (h0 : S.stopped = false) (hf : S.failedTasks = ∅) (hEse : ∀ s t, E t → s ∉ C.sideEffects t) : Waits C S E [] ∧ Fresh S := by
  refine ⟨?_, ?_⟩
  · intro x hx _
    rcases hi.pending h0 x hx with h1 | h1 | ⟨s, h1, h2⟩ | ⟨f, h1, _⟩ | h1 | h1
    · exact Or.inl h1
    · exact Or.inr (Or.inl h1)
    · refine Or.inr (Or.inr (Or.inl ⟨s, h1, Or.inl ?_⟩))
      exact h2.resolve_right (fun ⟨t, ht, h3⟩ => hEse s t ht h3)
    · rw [hf] at h1; simp at h1
    · exact Or.inr (Or.inr (Or.inr h1))
    · exact h1.elim
  · intro c hw hc
    obtain ⟨x, hx⟩ := Finset.nonempty_iff_ne_empty.2 hw
    exact (hi.fresh h0 c x hx hc).resolve_right id

theorem PInv.all {C : Cfg V} {orig : List V} {S : St V} (hi : Inv C orig S) (h : PInv C S) :
    Waits C S (fun _ => False) [] ∧ Fresh S := by
  cases h0 : S.stopped
  · exact hi.waits h0 (h.ft h0) (fun _ _ h => h.elim)
  · refine ⟨?_, h.fr h0⟩
    intro x hx hw
    rcases h.w h0 x hx hw with h1 | h1 | ⟨s, h1, h2⟩
    · exact Or.inl h1
    · exact Or.inr (Or.inl h1)
    · exact Or.inr (Or.inr (Or.inl ⟨s, h1, Or.inl h2⟩))

theorem Waits.toW {C : Cfg V} {S : St V} (h : Waits C S (fun _ => False) []) : ∀ x, S.state x = .pending → S.wp x ≠ ∅ →
    x ∈ S.cands ∨ (∃ c, x ∈ S.wp c) ∨ (∃ s, x ∈ S.wse s ∧ S.state s = .executing) := by
  intro x hx hw
  rcases h x hx hw with h1 | h1 | ⟨s, h1, h2⟩ | h1
  · exact Or.inl h1
  · exact Or.inr (Or.inl h1)
  · exact Or.inr (Or.inr ⟨s, h1, h2.resolve_right (by simp [Cfg.ses])⟩)
  · exact h1.elim

theorem considerNode_pend {C : Cfg V} {S S' : St V} {n : V} {scan : Scan V} {pushed : List V} {o : Outcome}
    (hc : TM.considerNode C S n scan pushed = some (S', o)) :
    ∀ x ∈ S'.pend, S'.wp x ≠ ∅ ∨ x ∈ S.pend := by
  unfold TM.considerNode at hc
  split at hc
  · simp only [Option.some.injEq, Prod.mk.injEq] at hc; rw [← hc.1]; exact fun x hx => Or.inr hx
  · split at hc
    · simp only [Option.some.injEq, Prod.mk.injEq] at hc; rw [← hc.1]; exact fun x hx => Or.inr hx
    · simp only at hc
      split at hc
      · simp only [Option.some.injEq] at hc
        have h3 := congrArg Prod.fst hc
        simp only at h3
        rw [← h3]
        unfold judge
        split
        · exact fun x hx => Or.inr hx
        · simp only; split
          · intro x hx
            simp only at hx
            rw [(addWaiting_fields _ _ _).2.2.2.2.2.1] at hx
            rcases Finset.mem_union.1 hx with h4 | h4
            · exact Or.inr h4
            · left
              simp only [List.mem_toFinset, List.mem_filter, decide_eq_true_eq] at h4
              simp only [addWaiting_wp]
              rw [if_pos]
              · exact Finset.insert_ne_empty _ _
              · simp only [List.mem_filter, decide_eq_true_eq]
                exact ⟨h4.1, by rw [h4.2]; simp [NState.rank]⟩
          · split <;> exact fun x hx => Or.inr hx
      · cases hc

theorem considerNode_wp_mono {C : Cfg V} {S S' : St V} {n : V} {scan : Scan V} {pushed : List V} {o : Outcome}
    (hc : TM.considerNode C S n scan pushed = some (S', o)) : ∀ x, S.wp x ⊆ S'.wp x := by
  unfold TM.considerNode at hc
  split at hc
  · simp only [Option.some.injEq, Prod.mk.injEq] at hc; rw [← hc.1]; exact fun x => Finset.Subset.refl _
  · split at hc
    · simp only [Option.some.injEq, Prod.mk.injEq] at hc; rw [← hc.1]; exact fun x => Finset.Subset.refl _
    · simp only at hc
      split at hc
      · simp only [Option.some.injEq] at hc
        have h3 := congrArg Prod.fst hc
        simp only at h3
        rw [← h3]
        unfold judge
        split
        · exact fun x => Finset.Subset.refl _
        · simp only; split
          · intro x; simp only [addWaiting_wp]; split
            · exact Finset.subset_insert _ _
            · exact Finset.Subset.refl _
          · split <;> exact fun x => Finset.Subset.refl _
      · cases hc

theorem considerNode_misc {C : Cfg V} {S S' : St V} {n : V} {scan : Scan V} {pushed : List V} {o : Outcome}
    (hc : TM.considerNode C S n scan pushed = some (S', o)) :
    S'.failedTasks = S.failedTasks ∧ S'.stopped = S.stopped ∧
    ((∀ x, S.state x ≠ .failed) → ∀ x, S'.state x ≠ .failed) := by
  unfold TM.considerNode at hc
  split at hc
  · simp only [Option.some.injEq, Prod.mk.injEq] at hc; rw [← hc.1]; exact ⟨rfl, rfl, id⟩
  · have hm : (∀ x, S.state x ≠ .failed) → ∀ x, (markPending S n).state x ≠ .failed := by
      intro h x; simp only [markPending, upd]; split
      · simp
      · exact h x
    split at hc
    · simp only [Option.some.injEq, Prod.mk.injEq] at hc; rw [← hc.1]; exact ⟨rfl, rfl, hm⟩
    · simp only at hc
      split at hc
      · simp only [Option.some.injEq] at hc
        have h3 := congrArg Prod.fst hc
        simp only at h3
        rw [← h3]
        unfold judge
        split
        · rename_i hany
          refine ⟨rfl, rfl, fun h => ?_⟩
          exfalso
          obtain ⟨c, _, h4⟩ := List.any_eq_true.1 hany
          exact hm h c (of_decide_eq_true h4)
        · simp only; split
          · obtain ⟨f1, f2, f3, f4, f5, f6, f7, f8, f9, f10, f11, f12, f13⟩ :=
              addWaiting_fields n ((C.prereqs n ++ _).filter (fun c => ((pushKids C (markPending S n) n (C.prereqs n ++ _) pushed).state c).rank ≤ 2))
                (pushKids C (markPending S n) n (C.prereqs n ++ _) pushed)
            refine ⟨f10, f7, fun h x => ?_⟩
            rw [f1]; exact hm h x
          · split <;> exact ⟨rfl, rfl, hm⟩
      · cases hc

/-- side effects: a step that does not fail leaves only those of outstanding tasks busy -/
theorem handOut_ok_se {C : Cfg V} {S S' : St V} {n : V} {fate : Fate} {post : List V}
    (hts : ∀ x ∈ C.targets n, ¬ C.isSE x) (hnf : fate.failure = none)
    (h : ∀ s, C.isSE s → S.state s = .executing → ∃ n ∈ S.active, s ∈ C.ses (C.targets n))
    (hh : TM.handOut C S n fate post = some S') :
    ∀ s, C.isSE s → S'.state s = .executing → ∃ n ∈ S'.active, s ∈ C.ses (C.targets n) := by
  cases fate with
  | exc m => simp [Fate.failure] at hnf
  | excReady b m => simp [Fate.failure] at hnf
  | internal res =>
    cases res with
    | some m => simp [Fate.failure] at hnf
    | none =>
      intro s hs h1
      have hh' : TM.postprocess C (TM.executed C (TM.makeReady C S (C.targets n) false) (C.targets n)) (C.targets n) post = some S' := hh
      have e1 : S'.active = S.active := (postprocess_failedTasks hh').2.2.1
      have hk : S'.state s = .executing → S.state s = .executing := by
        intro h2
        unfold TM.postprocess at hh'
        simp only at hh'
        split at hh'
        case isFalse => cases hh'
        injection hh' with hh'
        rw [← hh'] at h2; simp only [updOn_apply] at h2
        split at h2
        · cases h2
        · rcases executed_state_se (S := TM.makeReady C S (C.targets n) false) hts hs with h3 | h3
          · rw [h3] at h2; cases h2
          · rw [h3] at h2
            simp only [TM.makeReady, Bool.false_eq_true, if_false, updOn_apply] at h2
            rw [if_neg (fun h4 => hts s h4 hs)] at h2; exact h2
      rw [e1]; exact h s hs (hk h1)
  | start =>
    intro s hs h1
    rcases handOut_active hh with ⟨r0, r1, r2, r3, r4⟩ | ⟨r0, _⟩
    · rw [r1]
      by_cases h2 : s ∈ C.ses (C.targets n)
      · exact ⟨n, List.mem_cons_self, h2⟩
      · simp only [TM.handOut, Option.some.injEq] at hh
        rw [← hh] at h1
        simp only [TM.makeReady, if_true, updOn_apply] at h1
        rw [if_neg (by rintro (h3 | h3); exacts [hts s h3 hs, h2 h3])] at h1
        obtain ⟨k, hk, hsk⟩ := h s hs h1
        exact ⟨k, List.mem_cons_of_mem _ hk, hsk⟩
    · exact absurd rfl r0

/-- effect of handing out a node without failure on the failure bookkeeping -/
theorem handOut_ok_misc {C : Cfg V} {S S' : St V} {n : V} {fate : Fate} {post : List V} (hnf : fate.failure = none)
    (hh : TM.handOut C S n fate post = some S') : S'.stopped = S.stopped ∧ S'.failedTasks = S.failedTasks ∧
    ((∀ x, S.state x ≠ .failed) → ∀ x, S'.state x ≠ .failed) := by
  unfold TM.handOut at hh
  have hmr : ∀ b, (∀ x, S.state x ≠ .failed) → ∀ x, (makeReady C S (C.targets n) b).state x ≠ .failed := by
    intro b h x; cases b
    all_goals
      simp only [TM.makeReady, if_true, Bool.false_eq_true, if_false, updOn_apply]; split
      · simp
      · exact h x
  cases fate with
  | exc m => simp [Fate.failure] at hnf
  | excReady b m => simp [Fate.failure] at hnf
  | internal res =>
    cases res with
    | some m => simp [Fate.failure] at hnf
    | none =>
      obtain ⟨h1, h2, h3, h4, h5, h6, h7⟩ := postprocess_failedTasks hh
      refine ⟨h5, h1, fun h x hx => ?_⟩
      rcases ((CalmP.executed (C := C)).trans (.postprocess hh)).fail x hx with h8 | h8
      · exact hmr false h x h8.1
      · -- a failed state would have been failed before
        have := (CalmP.postprocess hh)
        unfold TM.postprocess at hh
        simp only at hh
        split at hh
        case isFalse => cases hh
        injection hh with hh
        rw [← hh] at hx; simp only [updOn_apply] at hx
        split at hx
        · cases hx
        · simp only [TM.executed] at hx
          split at hx
          · cases hx
          split at hx
          · cases hx
          · exact hmr false h x hx
  | start =>
    simp only [Option.some.injEq] at hh
    rw [← hh]
    exact ⟨rfl, rfl, hmr true⟩

theorem PInv.init {C : Cfg V} {orig : List V} : PInv C (St.init orig) := by
  constructor <;> simp [St.init]

/-- `S1` is `S` with the task of `n` taken off the list of outstanding tasks -/
structure TakeOff (n : V) (S S1 : St V) : Prop where
  state : S1.state = S.state
  wp : S1.wp = S.wp
  pend : S1.pend = S.pend
  cands : S1.cands = S.cands
  wse : S1.wse = S.wse
  ref : S1.ref = S.ref
  stopped : S1.stopped = S.stopped
  failedTasks : S1.failedTasks = S.failedTasks
  active : S1.active = S.active.erase n

theorem PInv.finishAux {C : Cfg V} {S S1 S' : St V} {n : V} (h : PInv C S) (t : TakeOff n S S1)
    (hcalm : Calm C S1 S') (hcp : CalmP S1 S') :
    (∀ x ∈ S'.pend, S'.wp x ≠ ∅ ∧ S'.state x ≠ .noState ∧ ¬ C.isSE x) ∧ (∀ x, S'.state x = .failed → S'.wp x = ∅) := by
  refine ⟨?_, ?_⟩
  · intro x hx
    obtain ⟨e1, e2⟩ := hcp.pend x hx
    rw [t.pend] at e1
    have := h.pd x e1
    exact ⟨by rw [e2, t.wp]; exact this.1, hcalm.vis x this.2.2 (by rw [t.state]; exact this.2.1), this.2.2⟩
  · intro x hx
    rcases hcp.fail x hx with e1 | e1
    · rw [t.state, t.wp] at e1
      have := h.fl x e1.1
      rw [this] at e1; exact Finset.subset_empty.1 e1.2
    · exact e1

theorem PInv.finishWaits {C : Cfg V} {orig : List V} {S S1 : St V} {n : V} (h : PInv C S) (hi : Inv C orig S)
    (t : TakeOff n S S1) (ts : List V) : Waits C S1 (fun _ => False) ts ∧ Fresh S1 := by
  obtain ⟨w1, w2⟩ := h.all hi
  refine ⟨?_, ?_⟩
  · intro x hx hw
    rw [t.state] at hx; rw [t.wp] at hw
    rw [t.cands, t.wp, t.wse, t.state]
    rcases w1 x hx hw with h5 | h5 | ⟨s, h5, h6⟩ | h5
    · exact Or.inl h5
    · exact Or.inr (Or.inl h5)
    · exact Or.inr (Or.inr (Or.inl ⟨s, h5, Or.inl (h6.resolve_right (by simp [Cfg.ses]))⟩))
    · exact h5.elim
  · intro c hw hc
    rw [t.wp] at hw; rw [t.state] at hc; rw [t.cands]; exact w2 c hw hc

theorem PInv.finishOk {C : Cfg V} {orig : List V} {S S1 S' : St V} {n : V} {post : List V} (h : PInv C S)
    (hi : Inv C orig S) (hts : ∀ x ∈ C.targets n, ¬ C.isSE x) (t : TakeOff n S S1)
    (hs : TM.postprocess C (TM.executed C S1 (C.targets n)) (C.targets n) post = some S') : PInv C S' := by
  obtain ⟨e1, e2, e3, e4, e5, e6, e7⟩ := postprocess_failedTasks hs
  have hcalm : Calm C S1 S' := Calm.trans .executed (.postprocess hs)
  obtain ⟨hpd, hfl⟩ := h.finishAux t hcalm (CalmP.trans (.executed (C := C)) (.postprocess hs))
  obtain ⟨w1, w2⟩ := h.finishWaits hi t (C.targets n)
  have hst : S'.stopped = S.stopped := e5.trans t.stopped
  have hs' := hs
  unfold TM.postprocess at hs'
  simp only at hs'
  split at hs'
  case isFalse => cases hs'
  injection hs' with hs'
  have hstate : ∀ x, S'.state x = if x ∈ (C.ses (C.targets n)).toFinset ∧ (TM.executed C S1 (C.targets n)).state x = NState.executing
      then .noState else (TM.executed C S1 (C.targets n)).state x := by intro x; rw [← hs']; rfl
  clear hs'
  refine ⟨?_, ?_, hpd, hfl, ?_, ?_, ?_⟩
  · intro h0; rw [hst] at h0
    rw [e1]; exact t.failedTasks.trans (h.ft h0)
  · intro h0 x hx; rw [hst] at h0
    rw [hstate] at hx
    split at hx
    · cases hx
    · simp only [TM.executed] at hx
      split at hx
      · cases hx
      split at hx
      · cases hx
      · rw [t.state] at hx; exact h.nf h0 x hx
  · intro s hs1 h3
    have hact' : S'.active = S.active.erase n := e3.trans t.active
    rw [hact']
    rw [hstate] at h3
    split at h3
    · cases h3
    · rename_i hnot
      have hnses : s ∉ C.ses (C.targets n) := fun h4 => hnot ⟨List.mem_toFinset.2 h4, h3⟩
      have h5 : S.state s = .executing := by
        rcases executed_state_se (S := S1) hts hs1 with h4 | h4
        · rw [h4] at h3; cases h3
        · rw [h4, t.state] at h3; exact h3
      obtain ⟨k, hk, hsk⟩ := h.se s hs1 h5
      refine ⟨k, (List.mem_erase_of_ne ?_).2 hk, hsk⟩
      rintro rfl; exact hnses hsk
  · intro _
    have href : ∀ p, (TM.executed C S1 (C.targets n)).ref p = cnt (TM.executed C S1 (C.targets n)).wp p := by
      intro p; show S1.ref p = cnt S1.wp p; rw [t.ref, t.wp]; exact hi.ref p
    exact (Waits.postprocess href (w1.executed (by rw [t.wse]; exact hi.wseSE) hts) hs).toW
  · intro _
    refine w2.of_calm hcalm (by rw [t.wp]; exact hi.seWp) ?_
    intro x hx; exact postprocess_cands hs x hx

theorem PInv.finishFail {C : Cfg V} {orig : List V} {S S1 S' : St V} {n : V} {post : List V} (h : PInv C S)
    (hi : Inv C orig S) (hno : ∀ s, ¬ C.isSE s) (t : TakeOff n S S1)
    (hs : TM.failTask C S1 (C.targets n) .stop post = some S') : PInv C S' := by
  obtain ⟨e1, e2, e3, e4, e5, e6, e7⟩ := failTask_fields hs
  obtain ⟨hpd, hfl⟩ := h.finishAux t (.failTask hs) (.failTask hs)
  obtain ⟨w1, w2⟩ := h.finishWaits hi t []
  have hst3 : S'.stopped = true := by rw [e5]; simp
  refine ⟨fun h0 => ?_, fun h0 => ?_, hpd, hfl, fun s hs => absurd hs (hno s), fun _ => ?_, fun _ => ?_⟩
  · rw [hst3] at h0; cases h0
  · rw [hst3] at h0; cases h0
  · exact (failStop_waits hno (by intro p; rw [t.ref, t.wp]; exact hi.ref p) (by rw [t.wse]; exact hi.wseSE) w1 (fun _ h => h.elim) hs).toW
  · exact w2.of_calm (.failTask hs) (by rw [t.wp]; exact hi.seWp) (failTask_cands hs)

theorem PInv.step {C : Cfg V} {orig : List V} {S S' : St V} {l : Lab V} (hC : C.WF) (hI : C.SEIso)
    (hi : Inv C orig S) (h : PInv C S) (hl : l.noSE C) (hso : l.stopOnly) (hse : (∀ s, ¬ C.isSE s) ∨ l.noFail)
    (hs : TM.step C S l = some S') : PInv C S' := by
  have hi' := Inv.step hC hI hi hl hs
  cases l with
  | consider alt scan pushed fate post =>
    simp only [TM.step] at hs
    split at hs
    · cases hs
    rename_i hstop
    split at hs
    · cases hs
    rename_i S1 n hnc
    obtain ⟨h1i, hn⟩ := InvE.nextCandidate hi hl.1 hnc
    have hts := hI.tgt n hn
    have hstop0 : S.stopped = false := by simpa using hstop
    obtain ⟨g1, g2, g3, g4, g5, g6, g7, g8, g9, g10, g11, g12⟩ := nextCandidate_fields hnc
    -- after considering the node
    have key : ∀ {S2 o}, considerNode C S1 n scan pushed = some (S2, o) →
        InvE C orig S2 (if o = .skip then (fun _ => False) else (· = n)) (fun _ => False) ∧
        S2.stopped = false ∧ S2.failedTasks = ∅ ∧ (∀ x, S2.state x ≠ .failed) ∧
        (∀ x ∈ S2.pend, S2.wp x ≠ ∅ ∧ S2.state x ≠ .noState ∧ ¬ C.isSE x) ∧
        (∀ s, C.isSE s → S2.state s = .executing → ∃ n ∈ S2.active, s ∈ C.ses (C.targets n)) := by
      intro S2 o hcn
      have h2i := (h1i.considerNode hC hI hn hl.2 hcn).1
      obtain ⟨m1, m2, m3⟩ := considerNode_misc hcn
      obtain ⟨j1, j2⟩ := considerNode_state hcn
      have hnf : ∀ x, S2.state x ≠ .failed := m3 (by rw [g1]; exact h.nf hstop0)
      refine ⟨h2i, by rw [m2, g9]; exact hstop0, by rw [m1, g5]; exact h.ft hstop0, hnf, ?_, ?_⟩
      · intro x hx
        have hw : S2.wp x ≠ ∅ := by
          rcases considerNode_pend hcn x hx with h3 | h3
          · exact h3
          · intro h4; rw [g8] at h3
            have := (h.pd x h3).1
            have h5 := considerNode_wp_mono hcn x
            rw [h4, g2] at h5; exact this (Finset.subset_empty.1 h5)
        have hnse : ¬ C.isSE x := fun h3 => hw (h2i.seWp x h3)
        refine ⟨hw, ?_, hnse⟩
        -- the added children are pending; old ones were visited
        have hvis : S1.state x ≠ .noState → S2.state x ≠ .noState := by
          intro h3 h4
          rcases j2 x with h5 | h5 | ⟨h5, h6⟩
          · exact h3 (h5 ▸ h4)
          · rw [h5] at h4; cases h4
          · have : S1.state n = .pending := by
              rw [h5] at h3
              cases hq : S1.state n <;> simp_all [NState.rank]
            have h7 : S2.state n = .noState := h5 ▸ h4
            unfold considerNode at hcn
            split at hcn
            · simp only [Option.some.injEq, Prod.mk.injEq] at hcn; rw [← hcn.1, this] at h7; cases h7
            · have hmp : (markPending S1 n).state n = .pending := by simp [markPending]
              split at hcn
              · simp only [Option.some.injEq, Prod.mk.injEq] at hcn; rw [← hcn.1, hmp] at h7; cases h7
              · simp only at hcn
                split at hcn
                · simp only [Option.some.injEq] at hcn
                  have h8 := congrArg Prod.fst hcn
                  simp only at h8
                  rw [← h8] at h7
                  rcases (judge_state (C := C) (S := pushKids C (markPending S1 n) n (C.prereqs n ++ _) pushed) (n := n)
                    (all := C.prereqs n ++ _)).2 n with h9 | h9
                  · rw [h9] at h7
                    have : (markPending S1 n).state n = .noState := h7
                    rw [hmp] at this; cases this
                  · rw [h9] at h7; cases h7
                · cases hcn
        by_cases hold : x ∈ S1.pend
        · rw [g8] at hold; exact hvis (by rw [g1]; exact (h.pd x hold).2.1)
        · intro h4
          unfold considerNode at hcn
          split at hcn
          · simp only [Option.some.injEq, Prod.mk.injEq] at hcn; rw [← hcn.1] at hx; exact hold hx
          · split at hcn
            · simp only [Option.some.injEq, Prod.mk.injEq] at hcn; rw [← hcn.1] at hx; exact hold hx
            · simp only at hcn
              split at hcn
              · simp only [Option.some.injEq] at hcn
                have h8 := congrArg Prod.fst hcn
                simp only at h8
                rw [← h8] at hx h4
                unfold judge at hx h4
                split at hx
                · exact hold hx
                · rename_i hany
                  rw [if_neg hany] at h4
                  simp only at hx h4; split at hx
                  · rename_i hnr
                    rw [if_pos hnr] at h4
                    simp only at hx h4
                    rw [(addWaiting_fields _ _ _).2.2.2.2.2.1] at hx
                    rw [(addWaiting_fields _ _ _).1] at h4
                    rcases Finset.mem_union.1 hx with h9 | h9
                    · exact hold h9
                    · simp only [List.mem_toFinset, List.mem_filter, decide_eq_true_eq] at h9
                      rw [h9.2] at h4; cases h4
                  · split at hx <;> exact hold hx
              · cases hcn
      · intro s hs h3
        rw [j1, g10]
        rcases j2 s with h4 | h4 | h4
        · rw [h4, g1] at h3; exact h.se s hs h3
        · exact absurd h4 (hnf s)
        · exact absurd (h4.1 ▸ hs) hn
    -- handing it out
    have fin : ∀ {S2 S3 : St V} {o}, o ≠ .skip → considerNode C S1 n scan pushed = some (S2, o) →
        TM.handOut C S2 n fate post = some S3 → (scan = .raised → fate.failure ≠ none) → InvE C orig S3 (fun _ => False) (fun _ => False) → PInv C S3 := by
      intro S2 S3 o ho hcn hS3 hsc h3i
      obtain ⟨q1, q2, q3, q4, q5, q6⟩ := key hcn
      rw [if_neg ho] at q1
      have hcalm := Calm.handOut hS3
      have hcp := CalmP.handOut hS3
      have hpd : ∀ x ∈ S3.pend, S3.wp x ≠ ∅ ∧ S3.state x ≠ .noState ∧ ¬ C.isSE x := by
        intro x hx
        obtain ⟨e1, e2⟩ := hcp.pend x hx
        have := q5 x e1
        exact ⟨by rw [e2]; exact this.1, hcalm.vis x this.2.2 this.2.1, this.2.2⟩
      have hfl : ∀ x, S3.state x = .failed → S3.wp x = ∅ := by
        intro x hx
        rcases hcp.fail x hx with e1 | e1
        · exact absurd e1.1 (q4 x)
        · exact e1
      cases hfail : fate.failure with
      | none =>
        obtain ⟨r1, r2, r3⟩ := handOut_ok_misc hfail hS3
        refine ⟨fun _ => by rw [r2, q3], fun _ => r3 q4, hpd, hfl, handOut_ok_se hts hfail q6 hS3, ?_, ?_⟩
        · intro h0; rw [r1, q2] at h0; cases h0
        · intro h0; rw [r1, q2] at h0; cases h0
      | some m =>
        have hm : m = .stop := hso m (by rw [hfail]; rfl)
        subst hm
        have hno : ∀ s, ¬ C.isSE s := by
          rcases hse with h5 | h5
          · exact h5
          · exact absurd (h5.2.symm.trans hfail) (by simp)
        -- both kinds of failing hand-outs
        have hcase : ∃ S2', (Calm C S2 S2') ∧ S2'.stopped = S2.stopped ∧ S2'.wp = S2.wp ∧ S2'.ref = S2.ref ∧ S2'.cands = S2.cands ∧ S2'.wse = S2.wse ∧
            TM.failTask C S2' (C.targets n) .stop post = some S3 := by
          cases fate with
          | exc m =>
            simp only [Fate.failure, Option.some.injEq] at hfail; subst hfail
            exact ⟨S2, .refl _ _, rfl, rfl, rfl, rfl, rfl, hS3⟩
          | excReady b m =>
            simp only [Fate.failure, Option.some.injEq] at hfail; subst hfail
            exact ⟨_, .makeReady, by cases b <;> rfl, by cases b <;> rfl, by cases b <;> rfl, by cases b <;> rfl, by cases b <;> rfl, hS3⟩
          | internal r =>
            simp only [Fate.failure] at hfail; subst hfail
            exact ⟨_, .makeReady, rfl, rfl, rfl, rfl, rfl, hS3⟩
          | start => simp [Fate.failure] at hfail
        obtain ⟨S2', c1, c2, c3, c4, c5, c6, c7⟩ := hcase
        obtain ⟨w1, w2⟩ := q1.waits q2 q3 (fun s t _ h5 => hno s ⟨t, h5⟩)
        have w1' : Waits C S2' (· = n) [] := by
          intro x hx hw
          rw [c3] at hw ⊢; rw [c5, c6]
          rcases w1 x (c1.pend x hx) hw with h5 | h5 | ⟨s, hs, _⟩ | h5
          · exact Or.inl h5
          · exact Or.inr (Or.inl h5)
          · exact absurd (q1.wseSE s x hs) (hno s)
          · exact Or.inr (Or.inr (Or.inr h5))
        have w2' : Fresh S2' := w2.of_calm c1 q1.seWp (by rw [c5]; exact fun _ h => h)
        have w3 := failStop_waits hno (by rw [c3, c4]; exact q1.ref) (by rw [c6]; exact q1.wseSE) w1'
          (fun x hx => by rw [hx]; exact hC.self n) c7
        have w4 := w2'.of_calm (.failTask c7) (by rw [c3]; exact q1.seWp) (failTask_cands c7)
        have hst3 : S3.stopped = true := by rw [(failTask_fields c7).2.2.2.2.1]; simp
        refine ⟨fun h0 => ?_, fun h0 => ?_, hpd, hfl, fun s hs => absurd hs (hno s), fun _ => w3.toW, fun _ => w4⟩
        · rw [hst3] at h0; cases h0
        · rw [hst3] at h0; cases h0
    split at hs
    · cases hs
    · rename_i S2 hcn
      obtain ⟨q1, q2, q3, q4, q5, q6⟩ := key hcn
      simp only [Option.some.injEq] at hs
      rw [← hs]
      refine ⟨fun _ => q3, fun _ => q4, q5, fun x hx => absurd hx (q4 x), q6, ?_, ?_⟩
      · intro h0; rw [show ({ S2 with clock := S2.clock + 1 } : St V).stopped = S2.stopped from rfl, q2] at h0; cases h0
      · intro h0; rw [show ({ S2 with clock := S2.clock + 1 } : St V).stopped = S2.stopped from rfl, q2] at h0; cases h0
    · rename_i S2 hcn
      split at hs
      · rename_i m
        rw [Option.map_eq_some_iff] at hs
        obtain ⟨S3, hS3, rfl⟩ := hs
        have h5 := fin (by simp) hcn hS3 (by simp [Fate.failure]) (hi'.clock S3.clock)
        exact ⟨h5.ft, h5.nf, h5.pd, h5.fl, h5.se, h5.w, h5.fr⟩
      · cases hs
    · rename_i S2 hcn
      rw [Option.map_eq_some_iff] at hs
      obtain ⟨S3, hS3, rfl⟩ := hs
      obtain ⟨kids, hk, _⟩ := considerNode_ready hcn
      have h5 := fin (by simp) hcn hS3 (by rw [hk]; simp) (hi'.clock S3.clock)
      exact ⟨h5.ft, h5.nf, h5.pd, h5.fl, h5.se, h5.w, h5.fr⟩
  | finish n res post =>
    simp only [TM.step] at hs
    split at hs
    case isFalse => cases hs
    rename_i hact
    have hn := hi.seAct n hact
    have hts := hI.tgt n hn
    split at hs
    · exact h.finishOk (S1 := { S with active := S.active.erase n, clock := S.clock + 1 }) (n := n) hi hts ⟨rfl, rfl, rfl, rfl, rfl, rfl, rfl, rfl, rfl⟩ hs
    · rename_i m
      have hm : m = .stop := hso m rfl
      subst hm
      have hno : ∀ s, ¬ C.isSE s := by
        rcases hse with h5 | h5
        · exact h5
        · simp [Lab.noFail] at h5
      exact h.finishFail (S1 := { S with active := S.active.erase n, clock := S.clock + 1 }) (n := n) hi hno ⟨rfl, rfl, rfl, rfl, rfl, rfl, rfl, rfl, rfl⟩ hs
  | flush =>
    simp only [TM.step] at hs
    split at hs
    case isFalse => cases hs
    rename_i hst
    simp only [Option.some.injEq] at hs
    obtain ⟨w1, w2⟩ := h.all hi
    have hsub := subset_upSet S.wp S.cands.toFinset
    have hwp : ∀ x, S'.wp x = if x ∈ upSet S.wp S.cands.toFinset then ∅ else S.wp x := by intro x; rw [← hs]; rfl
    have hstate : S'.state = S.state := by rw [← hs]; rfl
    have hpend : S'.pend = S.pend \ upSet S.wp S.cands.toFinset := by rw [← hs]; rfl
    have hstp : S'.stopped = true := by rw [← hs]; exact hst
    refine ⟨fun h0 => ?_, fun h0 => ?_, ?_, ?_, ?_, ?_, ?_⟩
    · rw [hstp] at h0; cases h0
    · rw [hstp] at h0; cases h0
    · intro x hx; rw [hpend] at hx
      obtain ⟨h1, h2⟩ := Finset.mem_sdiff.1 hx
      rw [hwp, if_neg h2, hstate]; exact h.pd x h1
    · intro x hx; rw [hstate] at hx; rw [hwp, h.fl x hx]; simp
    · rw [hstate, show S'.active = S.active by rw [← hs]; rfl]; exact h.se
    · intro _
      have h0 : Waits C { S with cands := [] } (fun x => False ∨ x ∈ S.cands.toFinset) [] := by
        intro x hx hw
        rcases w1 x hx hw with h1 | h1 | h1 | h1
        · exact Or.inr (Or.inr (Or.inr (Or.inr (List.mem_toFinset.2 h1))))
        · exact Or.inr (Or.inl h1)
        · exact Or.inr (Or.inr (Or.inl h1))
        · exact h1.elim
      have h2 := (Waits.wnb (b := false) (by simp) (by exact hi.wseSE) h0 (fun _ h => h.elim)).toW
      rw [← hs]; exact h2
    · intro _ c hw hc
      rw [hwp] at hw; split at hw
      · exact absurd rfl hw
      · rename_i h3
        rw [hstate] at hc
        exact absurd (hsub (List.mem_toFinset.2 (w2 c hw hc))) h3
  | interrupt =>
    simp only [TM.step, Option.some.injEq] at hs
    obtain ⟨w1, w2⟩ := h.all hi
    rw [← hs]
    exact ⟨fun h0 => by simp at h0, fun h0 => by simp at h0, h.pd, h.fl, h.se, fun _ => w1.toW, fun _ => w2⟩

end Verif.TM
