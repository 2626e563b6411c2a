import Verif.TM.Born

/-! Fourth invariant: outstanding tasks have disjoint side effects. -/

set_option linter.unusedSectionVars false
set_option linter.unusedSimpArgs false
set_option linter.unusedVariables false

namespace Verif.TM
variable {V : Type} [DecidableEq V] [Fintype V]

/-- A scan that raises is handled in stop mode (for the others see the counterexample `C08_counterexample_raise`). -/
def Lab.raiseStops : Lab V → Prop
  | .consider _ .raised _ fate _ => fate = .exc .stop
  | _ => True

structure SEX (C : Cfg V) (S : St V) : Prop where
  disj : ∀ a ∈ S.active, ∀ b ∈ S.active, a ≠ b → ∀ s ∈ C.ses (C.targets a), s ∉ C.ses (C.targets b)
  busy : S.stopped = false → ∀ n ∈ S.active, ∀ s ∈ C.ses (C.targets n), S.state s = .executing

/-- side effects outside `ts` keep their state, unless marked failed -/
def SEkeep (C : Cfg V) (ts : List V) (S S' : St V) : Prop :=
  ∀ s, C.isSE s → s ∉ C.ses ts → S'.state s = S.state s ∨ S'.state s = .failed

theorem SEkeep.trans {C : Cfg V} {ts : List V} {S S' S'' : St V} (h : SEkeep C ts S S') (h' : SEkeep C ts S' S'') :
    SEkeep C ts S S'' := by
  intro s hs hn
  rcases h' s hs hn with h1 | h1
  · rw [h1]; exact h s hs hn
  · exact Or.inr h1

theorem SEkeep.postprocess {C : Cfg V} {S S' : St V} {ts post : List V}
    (hp : TM.postprocess C S ts post = some S') : SEkeep C ts S S' := by
  unfold TM.postprocess at hp
  simp only at hp
  split at hp
  case isFalse => cases hp
  injection hp with hp
  intro s hs hn
  left; rw [← hp]; simp only [updOn_apply]; rw [if_neg]
  rintro ⟨h2, _⟩; exact hn (List.mem_toFinset.1 h2)

theorem SEkeep.executed {C : Cfg V} {S : St V} {ts : List V} (hts : ∀ x ∈ ts, ¬ C.isSE x) :
    SEkeep C ts S (executed C S ts) := by
  intro s hs hn
  left
  simp only [TM.executed]
  rw [if_neg, if_neg]
  · intro h1
    obtain ⟨t, ht, h2⟩ := ses_mem.1 h1
    exact hn (ses_mem.2 ⟨t, (List.mem_filter.1 ht).1, h2⟩)
  · intro h1; exact hts s (List.mem_filter.1 h1).1 hs

theorem SEkeep.wnb {C : Cfg V} {S : St V} {ts : List V} {A : Finset V} {b : Bool} : SEkeep C ts S (willNotBuild S A b) := by
  intro s hs hn
  cases b
  · exact Or.inl rfl
  · simp only [willNotBuild, if_true, updOn_apply]; split
    · exact Or.inr rfl
    · exact Or.inl rfl

theorem SEkeep.failTask {C : Cfg V} {S S' : St V} {ts post : List V} {m : FailMode} (hts : ∀ x ∈ ts, ¬ C.isSE x)
    (hm : m ≠ .stop) (hp : TM.failTask C S ts m post = some S') : SEkeep C ts S S' := by
  have h0 : SEkeep C ts S { S with failedTasks := S.failedTasks ∪ ts.toFinset } := fun _ _ _ => Or.inl rfl
  unfold TM.failTask at hp
  cases m <;> simp only at hp
  · exact absurd rfl hm
  · exact (h0.trans .wnb).trans (.postprocess hp)
  · exact (h0.trans (.executed hts)).trans (.postprocess hp)

theorem SEkeep.makeReady {C : Cfg V} {S : St V} {ts : List V} {b : Bool} (hts : ∀ x ∈ ts, ¬ C.isSE x) :
    SEkeep C ts S (makeReady C S ts b) := by
  intro s hs hn
  left
  cases b
  · simp only [TM.makeReady, Bool.false_eq_true, if_false, updOn_apply]
    rw [if_neg (fun h => hts s h hs)]
  · simp only [TM.makeReady, if_true, updOn_apply]
    rw [if_neg]; rintro (h | h)
    · exact hts s h hs
    · exact hn h

/-- Handing out a node either stops the walk or keeps all side effects that are not its own. -/
theorem SEkeep.handOut {C : Cfg V} {S S' : St V} {n : V} {fate : Fate} {post : List V}
    (hts : ∀ x ∈ C.targets n, ¬ C.isSE x)
    (hh : TM.handOut C S n fate post = some S') : S'.stopped = true ∨ SEkeep C (C.targets n) S S' := by
  unfold TM.handOut at hh
  have hf : ∀ {S0 S' : St V} {m}, TM.failTask C S0 (C.targets n) m post = some S' → S'.stopped = true ∨ SEkeep C (C.targets n) S0 S' := by
    intro S0 S' m h
    by_cases hm : m = .stop
    · left; rw [(failTask_fields h).2.2.2.2.1, hm]; simp
    · right; exact .failTask hts hm h
  cases fate with
  | exc m => exact hf hh
  | excReady b m => exact (hf hh).imp_right (SEkeep.trans (.makeReady hts))
  | internal res =>
    cases res with
    | none => exact Or.inr ((SEkeep.trans (.makeReady hts) (.executed hts)).trans (.postprocess hh))
    | some m => exact (hf hh).imp_right (SEkeep.trans (.makeReady hts))
  | start =>
    simp only [Option.some.injEq] at hh
    rw [← hh]
    exact Or.inr (SEkeep.trans (.makeReady hts (b := true)) (fun _ _ _ => Or.inl rfl))

theorem handOut_active {C : Cfg V} {S S' : St V} {n : V} {fate : Fate} {post : List V}
    (hh : TM.handOut C S n fate post = some S') :
    (fate = .start ∧ S'.active = n :: S.active ∧ S'.stopped = S.stopped ∧ S'.started = C.targets n ++ S.started ∧
      ∀ x, x ∈ C.targets n ∨ x ∈ C.ses (C.targets n) → S'.state x = .executing) ∨
    (fate ≠ .start ∧ S'.active = S.active ∧ S'.started = S.started ∧ (S.stopped = true → S'.stopped = true)) := by
  unfold TM.handOut at hh
  cases fate with
  | exc m =>
    obtain ⟨h1, h2, h3, h4, h5, h6, h7⟩ := failTask_fields hh
    right; exact ⟨by simp, h3, h2, fun h => by rw [h5, h]; rfl⟩
  | excReady b m =>
    obtain ⟨h1, h2, h3, h4, h5, h6, h7⟩ := failTask_fields hh
    right
    refine ⟨by simp, ?_, ?_, ?_⟩
    · rw [h3]; cases b <;> rfl
    · rw [h2]; cases b <;> rfl
    · intro h; rw [h5]; cases b <;> simp [TM.makeReady, h]
  | internal res =>
    right
    cases res with
    | none =>
      obtain ⟨h1, h2, h3, h4, h5, h6, h7⟩ := postprocess_failedTasks hh
      refine ⟨by simp, ?_, ?_, ?_⟩
      · rw [h3]; rfl
      · rw [h2]; rfl
      · intro h; rw [h5]; exact h
    | some m =>
      obtain ⟨h1, h2, h3, h4, h5, h6, h7⟩ := failTask_fields hh
      refine ⟨by simp, ?_, ?_, ?_⟩
      · rw [h3]; rfl
      · rw [h2]; rfl
      · intro h; rw [h5]; simp [TM.makeReady, h]
  | start =>
    simp only [Option.some.injEq] at hh
    left
    refine ⟨rfl, ?_, ?_, ?_, ?_⟩
    · rw [← hh]; rfl
    · rw [← hh]; rfl
    · rw [← hh]; rfl
    · intro x hx; rw [← hh]; simp only [TM.makeReady, if_true, updOn_apply]; rw [if_pos hx]

/-- A node is found ready only if none of its action's side effects is busy. -/
theorem considerNode_ready {C : Cfg V} {S S' : St V} {n : V} {scan : Scan V} {pushed : List V}
    (hc : TM.considerNode C S n scan pushed = some (S', .ready)) :
    ∃ kids, scan = .ok kids ∧ (S.state n).rank ≤ 1 ∧ S'.state = (markPending S n).state
      ∧ (∀ c ∈ C.prereqs n ++ kids, (S'.state c).done)
      ∧ (∀ s ∈ C.ses (C.actTargets n), S'.state s ≠ .executing) := by
  unfold TM.considerNode at hc
  split at hc
  · simp at hc
  · rename_i hr
    split at hc
    · simp at hc
    · rename_i kids
      simp only at hc
      split at hc
      · simp only [Option.some.injEq] at hc
        unfold judge at hc
        split at hc
        · simp at hc
        · rename_i hnf
          simp only at hc
          split at hc
          · simp at hc
          · rename_i hnr
            split at hc
            · simp at hc
            · rename_i hb
              simp only [Prod.mk.injEq, and_true] at hc
              rw [← hc]
              refine ⟨kids, rfl, by omega, rfl, ?_, ?_⟩
              · intro c hcm
                have h1 : ¬ ((pushKids C (markPending S n) n (C.prereqs n ++ kids) pushed).state c).rank ≤ 2 := by
                  intro h2; apply hnr; intro h3
                  have : c ∈ ([] : List V) := h3 ▸ List.mem_filter.2 ⟨hcm, by simpa using h2⟩
                  simp at this
                have h2 : (pushKids C (markPending S n) n (C.prereqs n ++ kids) pushed).state c ≠ .failed := by
                  intro h3; apply hnf; rw [List.any_eq_true]; exact ⟨c, hcm, by simpa using h3⟩
                revert h1 h2
                cases (pushKids C (markPending S n) n (C.prereqs n ++ kids) pushed).state c <;> simp [NState.rank, NState.done]
              · intro s hs h3
                apply hb; intro h4
                have : s ∈ ([] : List V) := h4 ▸ List.mem_filter.2 ⟨hs, by simpa using h3⟩
                simp at this
      · simp at hc

theorem SEX.step {C : Cfg V} {orig : List V} {S S' : St V} {l : Lab V} (hC : C.WF) (hI : C.SEIso)
    (hA : ∀ n, ∀ s ∈ C.ses (C.targets n), s ∈ C.ses (C.actTargets n))
    (hi : Inv C orig S) (h : SEX C S) (hl : l.noSE C) (hr : l.raiseStops) (hs : TM.step C S l = some S') : SEX C S' := by
  have hi' := Inv.step hC hI hi hl hs
  cases l with
  | consider alt scan pushed fate post =>
    simp only [TM.step] at hs
    split at hs
    · cases hs
    rename_i hstop
    split at hs
    · cases hs
    rename_i S1 n hnc
    obtain ⟨h1i, hn⟩ := InvE.nextCandidate hi hl.1 hnc
    have hts := hI.tgt n hn
    have hnf : ∀ {T : St V} {Q}, InvE C orig T Q (fun _ => False) → ∀ s, C.isSE s → T.state s ≠ .failed := by
      intro T Q hT s hs h1; rcases hT.seSt s hs with h2 | h2 <;> rw [h1] at h2 <;> cases h2
    obtain ⟨g1, g2, g3, g4, g5, g6⟩ := nextCandidate_fields hnc
    obtain ⟨k1, k2, k3, k4, k5, k6⟩ := nextCandidate_more hnc
    have ga := nextCandidate_active hnc
    have h1 : SEX C S1 := ⟨by rw [ga]; exact h.disj, by rw [ga, g1, k3]; exact h.busy⟩
    have key : ∀ {S2 o}, considerNode C S1 n scan pushed = some (S2, o) → S2.active = S1.active ∧ SEX C S2 ∧
        ∀ s, C.isSE s → S2.state s = S1.state s := by
      intro S2 o hcn
      obtain ⟨j1, j2⟩ := considerNode_state hcn
      have h2i := (h1i.considerNode hC hI hn hl.2 hcn).1
      have hst : ∀ s, C.isSE s → S2.state s = S1.state s := by
        intro s hs
        rcases j2 s with h3 | h3 | h3
        · exact h3
        · exact absurd h3 (hnf h2i s hs)
        · exact absurd (h3.1 ▸ hs) hn
      refine ⟨j1, ⟨by rw [j1]; exact h1.disj, ?_⟩, hst⟩
      intro h0 k hk s hs
      rw [hst s (isSE_of_ses hs)]
      rw [j1] at hk
      exact h1.busy (by rw [k3]; simpa using hstop) k hk s hs
    split at hs
    · cases hs
    · rename_i S2 hcn
      simp only [Option.some.injEq] at hs
      rw [← hs]
      exact ⟨(key hcn).2.1.disj, (key hcn).2.1.busy⟩
    · rename_i S2 hcn
      split at hs
      · rename_i m
        rw [Option.map_eq_some_iff] at hs
        obtain ⟨S3, hS3, rfl⟩ := hs
        have hm : m = .stop := by
          have : ∃ b, considerNode C S1 n scan pushed = some (S2, b) ∧ b = .raised := ⟨_, hcn, rfl⟩
          cases scan with
          | raised => simpa [Lab.raiseStops] using hr
          | ok kids =>
            exfalso
            unfold considerNode at hcn
            split at hcn
            · simp at hcn
            · simp only at hcn
              split at hcn
              · simp only [Option.some.injEq] at hcn
                have := congrArg Prod.snd hcn
                unfold judge at this
                split at this
                · simp at this
                · simp only at this; split at this
                  · simp at this
                  · split at this <;> simp at this
              · cases hcn
        obtain ⟨e1, e2, e3, e4, e5, e6, e7⟩ := failTask_fields (show failTask C S2 (C.targets n) m post = some S3 from hS3)
        refine ⟨?_, ?_⟩
        · show ∀ a ∈ S3.active, _
          rw [e3]; exact (key hcn).2.1.disj
        · intro h0
          have h0' : S3.stopped = false := h0
          rw [e5, hm] at h0'; simp at h0'
      · cases hs
    · rename_i S2 hcn
      rw [Option.map_eq_some_iff] at hs
      obtain ⟨S3, hS3, rfl⟩ := hs
      obtain ⟨q1, q2, q3⟩ := key hcn
      obtain ⟨kids, -, -, -, -, hfree⟩ := considerNode_ready hcn
      have h3nf : ∀ s, C.isSE s → S3.state s ≠ .failed := fun s hs => hnf hi' s hs
      have hstop2 : S.stopped = false := by simpa using hstop
      have hbusy2 : ∀ k ∈ S2.active, ∀ s ∈ C.ses (C.targets k), S2.state s = .executing := by
        intro k hk s hs
        rw [q3 s (isSE_of_ses hs)]
        exact h1.busy (by rw [k3]; exact hstop2) k (q1 ▸ hk) s hs
      have hdis : ∀ k ∈ S2.active, ∀ s ∈ C.ses (C.targets k), s ∉ C.ses (C.targets n) := by
        intro k hk s hs hsn
        exact hfree s (hA n s hsn) (hbusy2 k hk s hs)
      rcases handOut_active hS3 with ⟨r0, r1, r2, r3, r4⟩ | ⟨r0, r1, r2, r3⟩
      · refine ⟨?_, ?_⟩
        · intro a ha b hb hab s hsa hsb
          have ha' : a ∈ n :: S2.active := r1 ▸ ha
          have hb' : b ∈ n :: S2.active := r1 ▸ hb
          rcases List.mem_cons.1 ha' with e1 | e1 <;> rcases List.mem_cons.1 hb' with e2 | e2
          · exact hab (e1.trans e2.symm)
          · subst e1; exact hdis b e2 s hsb hsa
          · subst e2; exact hdis a e1 s hsa hsb
          · exact q2.disj a e1 b e2 hab s hsa hsb
        · intro h0 k hk s hs
          show S3.state s = .executing
          have hk' : k ∈ n :: S2.active := r1 ▸ hk
          rcases List.mem_cons.1 hk' with e1 | e1
          · subst e1; exact r4 s (Or.inr hs)
          · rcases SEkeep.handOut hts hS3 with e2 | e2
            · have h0' : S3.stopped = false := h0
              rw [e2] at h0'; cases h0'
            · rcases e2 s (isSE_of_ses hs) (hdis k e1 s hs) with e3 | e3
              · rw [e3]; exact hbusy2 k e1 s hs
              · exact absurd e3 (h3nf s (isSE_of_ses hs))
      · refine ⟨?_, ?_⟩
        · show ∀ a ∈ S3.active, _
          rw [r1]; exact q2.disj
        · intro h0 k hk s hs
          show S3.state s = .executing
          have e1 : k ∈ S2.active := r1 ▸ hk
          rcases SEkeep.handOut hts hS3 with e2 | e2
          · have h0' : S3.stopped = false := h0
            rw [e2] at h0'; cases h0'
          · rcases e2 s (isSE_of_ses hs) (hdis k e1 s hs) with e3 | e3
            · rw [e3]; exact hbusy2 k e1 s hs
            · exact absurd e3 (h3nf s (isSE_of_ses hs))
  | finish n res post =>
    simp only [TM.step] at hs
    split at hs
    case isFalse => cases hs
    rename_i hact
    have hn := hi.seAct n hact
    have hts := hI.tgt n hn
    have hmem : ∀ k ∈ S.active.erase n, k ∈ S.active ∧ k ≠ n := fun k hk =>
      ⟨List.mem_of_mem_erase hk, fun e => hi.startedRest.actNodup.not_mem_erase (e ▸ hk)⟩
    have hd : ∀ {T : St V}, T.active = S.active.erase n →
        ∀ a ∈ T.active, ∀ b ∈ T.active, a ≠ b → ∀ s ∈ C.ses (C.targets a), s ∉ C.ses (C.targets b) := by
      intro T hT a ha b hb
      rw [hT] at ha hb
      exact h.disj a (hmem a ha).1 b (hmem b hb).1
    have h3nf : ∀ s, C.isSE s → S'.state s ≠ .failed := by
      intro s hs h1; rcases hi'.seSt s hs with h2 | h2 <;> rw [h1] at h2 <;> cases h2
    have fin : ∀ {S1 : St V}, S1.state = S.state → S'.active = S.active.erase n → (S'.stopped = false → S.stopped = false) →
        SEkeep C (C.targets n) S1 S' → SEX C S' := by
      intro S1 e0 e1 e2 e3
      refine ⟨hd e1, ?_⟩
      intro h0 k hk s hsk
      rw [e1] at hk
      rcases e3 s (isSE_of_ses hsk) (h.disj k (hmem k hk).1 n hact (hmem k hk).2 s hsk) with e4 | e4
      · rw [e4, e0]; exact h.busy (e2 h0) k (hmem k hk).1 s hsk
      · exact absurd e4 (h3nf s (isSE_of_ses hsk))
    split at hs
    · obtain ⟨e1, e2, e3, e4, e5, e6, e7⟩ := postprocess_failedTasks hs
      refine fin (S1 := { S with active := S.active.erase n, clock := S.clock + 1 }) rfl ?_ ?_
        (SEkeep.trans (.executed hts) (.postprocess hs))
      · rw [e3]; rfl
      · rw [e5]; exact id
    · rename_i m
      obtain ⟨e1, e2, e3, e4, e5, e6, e7⟩ := failTask_fields hs
      by_cases hm : m = .stop
      · refine ⟨hd (by rw [e3]), ?_⟩
        intro h0; rw [e5, hm] at h0; simp at h0
      · refine fin (S1 := { S with active := S.active.erase n, clock := S.clock + 1 }) rfl (by rw [e3]) ?_
          (.failTask hts hm hs)
        intro h0; rw [e5] at h0; simpa using (Bool.or_eq_false_iff.1 h0).1
  | flush =>
    simp only [TM.step] at hs
    split at hs
    case isFalse => cases hs
    rename_i hst
    simp only [Option.some.injEq] at hs
    rw [← hs]
    exact ⟨h.disj, fun h0 => absurd (show S.stopped = false from h0) (by simp [hst])⟩
  | interrupt =>
    simp only [TM.step, Option.some.injEq] at hs
    rw [← hs]
    exact ⟨h.disj, fun h0 => by simp at h0⟩

end Verif.TM
