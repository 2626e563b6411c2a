import Verif.TM.Inv

/-! The main invariant is preserved by the remaining primitives and hence by every step. -/

set_option linter.unusedSectionVars false
set_option linter.unusedSimpArgs false
set_option linter.unusedVariables false

namespace Verif.TM
variable {V : Type} [DecidableEq V] [Fintype V]

/-- Removing the popped node from consideration. -/
theorem InvE.monoQ {C : Cfg V} {orig : List V} {S : St V} {E Q : V → Prop} (h : InvE C orig S E Q)
    (h1 : ∀ x, Q x → S.state x ≠ .noState) (h2 : ∀ x, Q x → S.state x = .pending → E x) :
    InvE C orig S E (fun _ => False) :=
  { h with
    pending := fun h0 x hx => by
      rcases h.pending h0 x hx with h | h | h | h | h | h
      · exact Or.inl h
      · exact Or.inr (Or.inl h)
      · exact Or.inr (Or.inr (Or.inl h))
      · exact Or.inr (Or.inr (Or.inr (Or.inl h)))
      · exact Or.inr (Or.inr (Or.inr (Or.inr (Or.inl h))))
      · exact Or.inr (Or.inr (Or.inr (Or.inr (Or.inl (h2 x h hx)))))
    fresh := fun h0 c x hx hc => by
      rcases h.fresh h0 c x hx hc with h | h
      · exact Or.inl h
      · exact absurd hc (h1 c h)
    top := fun h0 x hx => by
      rcases h.top h0 x hx with h | h | h | h
      · exact Or.inl h
      · exact Or.inr (Or.inl h)
      · exact Or.inr (Or.inr (Or.inl h))
      · exact Or.inr (Or.inr (Or.inl (h1 x h))) }

theorem InvE.addFailed {C : Cfg V} {orig : List V} {S : St V} {E Q : V → Prop} (h : InvE C orig S E Q)
    (F : Finset V) : InvE C orig { S with failedTasks := S.failedTasks ∪ F } E Q :=
  { h with
    pending := fun h0 x hx => by
      rcases h.pending h0 x hx with h | h | h | h | h | h
      · exact Or.inl h
      · exact Or.inr (Or.inl h)
      · exact Or.inr (Or.inr (Or.inl h))
      · exact Or.inr (Or.inr (Or.inr (Or.inl (h.mono (by simp) (by simp)))))
      · exact Or.inr (Or.inr (Or.inr (Or.inr (Or.inl h))))
      · exact Or.inr (Or.inr (Or.inr (Or.inr (Or.inr h))))
    failed := fun x hx => (h.failed x hx).mono (by simp) (by simp) }

theorem InvE.wnb {C : Cfg V} {orig : List V} {S : St V} {E Q : V → Prop} (h : InvE C orig S E Q)
    (A : Finset V) (mark : Bool) (hA : ∀ x ∈ A, ¬ C.isSE x) (hb : mark = true → ∀ x ∈ A, Bad S x)
    (hm : mark = false → S.stopped = true) : InvE C orig (willNotBuild S A mark) E Q := by
  have hU1 : ∀ x ∈ upSet S.wp A, ¬ C.isSE x := upSet_ind _ _ _ hA (fun c p _ hp => h.seWp' c p hp)
  have hU2 : mark = true → ∀ x ∈ upSet S.wp A, Bad S x := fun hmk =>
    upSet_ind _ _ _ (hb hmk) (fun c p hc hp => Bad.seen_step (h.seen c p hp) hc)
  have hcl := upSet_closed S.wp A
  generalize hU : upSet S.wp A = U at *
  have hst : ∀ x, x ∉ U → (willNotBuild S A mark).state x = S.state x := by
    intro x hx; simp only [willNotBuild]; split <;> simp [updOn_apply, hU, hx]
  have hst' : ∀ x, (willNotBuild S A mark).state x = S.state x ∨
      (mark = true ∧ x ∈ U ∧ (willNotBuild S A mark).state x = .failed) := by
    intro x; simp only [willNotBuild, hU]; split
    · rename_i hm; simp only [updOn_apply]; split <;> simp_all
    · exact Or.inl rfl
  have hwp : ∀ c, (willNotBuild S A mark).wp c = if c ∈ U then ∅ else S.wp c := by
    intro c; simp only [willNotBuild, hU, updOn_apply]
  have hwp' : ∀ c x, x ∈ (willNotBuild S A mark).wp c → x ∈ S.wp c ∧ c ∉ U := by
    intro c x hx; rw [hwp] at hx; split at hx
    · simp at hx
    · exact ⟨hx, ‹_›⟩
  have href : ∀ p, (willNotBuild S A mark).ref p = cnt (willNotBuild S A mark).wp p := by
    intro p; subst hU; simp only [willNotBuild]; rw [cnt_clear, h.ref]
  have hbad : ∀ x, Bad (willNotBuild S A mark) x ↔ Bad S x := fun x => Iff.rfl
  refine ⟨href, h.origSE, ?_, ?_, h.seCands, h.seTops, h.seWse, h.wseSE, h.seCur, h.seAct, ?_, ?_, ?_, ?_, ?_, ?_, ?_, ?_, ?_,
    h.seenPeer, h.seenSE, h.startedRest, ?_⟩
  · intro s hs; rw [hwp]; split
    · rfl
    · exact h.seWp s hs
  · intro c x hx; exact h.seWp' c x (hwp' c x hx).1
  · intro s hs; rw [hst s (fun h1 => hU1 s h1 hs)]; exact h.seSt s hs
  · intro x hx hx2
    rcases hst' x with h1 | ⟨_, _, h1⟩
    · rw [h1] at hx2; exact h.exec x hx hx2
    · rw [h1] at hx2; cases hx2
  · intro s hs; rw [hst s (fun h1 => hU1 s h1 hs)]; exact h.execSE s hs
  · intro c hc
    rcases hst' c with h1 | ⟨_, _, h1⟩
    · rw [h1] at hc
      rcases h.done c hc with h2 | h2
      · left; rw [hwp]; split
        · rfl
        · exact h2
      · exact Or.inr h2
    · rw [h1] at hc; exact hc.elim
  · intro h0 x hx
    have hmk : mark = true := by
      cases hmk : mark
      · have := hm hmk; rw [show (willNotBuild S A mark).stopped = S.stopped from rfl, this] at h0; cases h0
      · rfl
    have hxU : x ∉ U := by
      intro h1; simp only [willNotBuild, hU, hmk, if_true, updOn_apply, h1] at hx; cases hx
    rw [hst x hxU] at hx
    rcases h.pending h0 x hx with h1 | ⟨c, h1⟩ | ⟨s, h1, h2⟩ | h1 | h1 | h1
    · exact Or.inl h1
    · right; left; refine ⟨c, ?_⟩
      rw [hwp, if_neg]; exact h1
      intro hc; exact hxU (hcl c hc x h1)
    · right; right; left; refine ⟨s, h1, ?_⟩
      rw [hst s (fun h3 => hU1 s h3 (h.wseSE _ _ h1))]; exact h2
    · right; right; right; left; exact h1
    · right; right; right; right; left; exact h1
    · right; right; right; right; right; exact h1
  · intro h0 c x hx hc
    obtain ⟨h1, h2⟩ := hwp' c x hx
    rw [hst c h2] at hc
    exact h.fresh h0 c x h1 hc
  · intro h0 x hx
    rcases hst' x with h1 | ⟨_, _, h1⟩
    · rw [h1]; exact h.top h0 x hx
    · rw [h1]; right; right; left; simp
  · intro x hx
    rcases hst' x with h1 | ⟨h2, h3, _⟩
    · rw [h1] at hx; exact h.failed x hx
    · exact hU2 h2 x h3
  · intro c x hx; exact h.seen c x (hwp' c x hx).1
  · intro x hx
    rcases hst' x with h1 | ⟨_, _, h1⟩ <;> rw [h1]
    · exact h.started x hx
    · simp [NState.rank]

theorem wnb_failed (S : St V) (A : Finset V) {x : V} (hx : x ∈ A) : (willNotBuild S A true).state x = .failed := by
  simp [willNotBuild, updOn_apply, subset_upSet S.wp A hx]

/-- `failTask` re-establishes the invariant. -/
theorem InvE.failTask {C : Cfg V} {orig : List V} {S S' : St V} {ts post : List V} {m : FailMode}
    (h : InvE C orig S (· ∈ ts) (fun _ => False)) (hts : ∀ x ∈ ts, ¬ C.isSE x)
    (hf : TM.failTask C S ts m post = some S') :
    InvE C orig S' (fun _ => False) (fun _ => False) := by
  have h1 := h.addFailed ts.toFinset
  unfold TM.failTask at hf
  simp only at hf
  generalize hS1 : ({ S with failedTasks := S.failedTasks ∪ ts.toFinset } : St V) = S1 at *
  have hbad : ∀ x ∈ ts, Bad S1 x := fun x hx => Bad.of_failedTask (by rw [← hS1]; simp [hx])
  have htf : ∀ x ∈ ts.toFinset, ¬ C.isSE x := fun x hx => hts x (List.mem_toFinset.1 hx)
  cases m with
  | ignore =>
    simp only at hf
    have h2 := h1.executed hts
    refine (h2.postprocess hts ?_ ?_ hf).mono (fun x hx => hx.2 hx.1)
    · intro x hx _; rw [executed_state_nse (hts x hx)]; split
      · simp
      · rename_i h5; exact fun h6 => h5 ⟨hx, h6⟩
    · intro _ x hx _ _; exact ((executed_only C S1 ts).bad x).2 (hbad x hx)
  | keepGoing =>
    simp only at hf
    have h2 := h1.wnb ts.toFinset true htf (fun _ x hx => hbad x (List.mem_toFinset.1 hx)) (by simp)
    refine (h2.postprocess hts ?_ ?_ hf).mono (fun x hx => hx.2 hx.1)
    · intro x hx _; rw [wnb_failed _ _ (List.mem_toFinset.2 hx)]; simp
    · intro _ x hx _ hx2; rw [wnb_failed _ _ (List.mem_toFinset.2 hx)] at hx2; cases hx2
  | stop =>
    simp only at hf
    have h2 := h1.wnb ts.toFinset true htf (fun _ x hx => hbad x (List.mem_toFinset.1 hx)) (by simp)
    have hfl : ∀ x ∈ ts, (willNotBuild S1 ts.toFinset true).state x = .failed :=
      fun x hx => wnb_failed _ _ (List.mem_toFinset.2 hx)
    generalize willNotBuild S1 ts.toFinset true = S2 at *
    have h3 : InvE C orig { S2 with stopped := true } (fun _ => False) (fun _ => False) :=
      { h2 with
        exec := fun x hx hx2 => by
          rcases h2.exec x hx hx2 with h | h
          · exact Or.inl h
          · have : S2.state x = .executing := hx2
            rw [hfl x h] at this; cases this
        execSE := fun s hs hs2 => Or.inr (Or.inl rfl)
        done := fun c hc => by
          rcases h2.done c hc with h | h
          · exact Or.inl h
          · have : (S2.state c).done := hc
            rw [hfl c h] at this; exact this.elim
        pending := fun h0 => by cases h0
        fresh := fun h0 => by cases h0
        top := fun h0 => by cases h0 }
    have hcur : ∀ x ∈ S2.curTop.toList, ¬ C.isSE x := by
      intro x hx; exact h2.seCur x (by simpa using hx)
    exact (h3.postprocess hcur (fun _ _ h => h.elim) (fun _ _ _ h => h.elim) hf).mono (fun x hx => hx.1)

/-! ### makeReady, handOut -/

theorem InvE.makeReady {C : Cfg V} {orig : List V} {S : St V} {n : V} {ts : List V} (needs : Bool)
    (h : InvE C orig S (· = n) (fun _ => False)) (hn : n ∈ ts) (hts : ∀ x ∈ ts, ¬ C.isSE x) :
    InvE C orig (makeReady C S ts needs) (· ∈ ts) (fun _ => False) := by
  have h := h.mono (E' := (· ∈ ts)) (fun x hx => by rw [hx]; exact hn)
  cases needs with
  | false =>
    have hs : ∀ x, (TM.makeReady C S ts false).state x = if x ∈ ts then .upToDate else S.state x := fun x => rfl
    have o : OnlyState S (TM.makeReady C S ts false) := by constructor <;> rfl
    have hseq : ∀ s, C.isSE s → (TM.makeReady C S ts false).state s = S.state s := by
      intro s hs'; rw [hs, if_neg (fun h1 => hts s h1 hs')]
    refine ⟨h.ref, h.origSE, h.seWp, h.seWp', h.seCands, h.seTops, h.seWse, h.wseSE, h.seCur, h.seAct, ?_, ?_, ?_, ?_, ?_, ?_, ?_, ?_, h.seen,
      h.seenPeer, h.seenSE, h.startedRest, ?_⟩
    · intro s hs'; rw [hseq s hs']; exact h.seSt s hs'
    · intro x hx hx2; rw [hs] at hx2; split at hx2
      · cases hx2
      · exact h.exec x hx hx2
    · intro s hs'; rw [hseq s hs']; exact h.execSE s hs'
    · intro c hc; rw [hs] at hc; split at hc
      · exact Or.inr ‹_›
      · exact h.done c hc
    · intro h0 x hx; rw [hs] at hx; split at hx
      · cases hx
      · rcases h.pending h0 x hx with h1 | h1 | ⟨s, h1, h2⟩ | h1 | h1 | h1
        · exact Or.inl h1
        · exact Or.inr (Or.inl h1)
        · right; right; left; refine ⟨s, h1, ?_⟩
          rw [hseq s (h.wseSE _ _ h1)]; exact h2
        · exact Or.inr (Or.inr (Or.inr (Or.inl h1)))
        · exact Or.inr (Or.inr (Or.inr (Or.inr (Or.inl h1))))
        · exact h1.elim
    · intro h0 c x hx hc; rw [hs] at hc; split at hc
      · cases hc
      · exact h.fresh h0 c x hx hc
    · intro h0 x hx; rw [hs]; split
      · right; right; left; simp
      · exact h.top h0 x hx
    · intro x hx; rw [hs] at hx; split at hx
      · cases hx
      · exact h.failed x hx
    · intro x hx; rw [hs]; split
      · simp [NState.rank]
      · exact h.started x hx
  | true =>
    have hs : ∀ x, (TM.makeReady C S ts true).state x = if x ∈ ts ∨ x ∈ C.ses ts then .executing else S.state x := fun x => rfl
    have o : OnlyState S (TM.makeReady C S ts true) := by constructor <;> rfl
    have hsn : ∀ x, ¬ C.isSE x → (TM.makeReady C S ts true).state x = if x ∈ ts then .executing else S.state x := by
      intro x hx; rw [hs]
      by_cases h1 : x ∈ ts
      · simp [h1]
      · simp [h1, show x ∉ C.ses ts from fun h2 => hx (isSE_of_ses h2)]
    have hsub : ∀ x, S.state x = .executing → (TM.makeReady C S ts true).state x = .executing := by
      intro x hx; rw [hs]; split
      · rfl
      · exact hx
    refine ⟨h.ref, h.origSE, h.seWp, h.seWp', h.seCands, h.seTops, h.seWse, h.wseSE, h.seCur, h.seAct, ?_, ?_, ?_, ?_, ?_, ?_, ?_, ?_, h.seen,
      h.seenPeer, h.seenSE, h.startedRest, ?_⟩
    · intro s hs'; rw [hs]; split
      · exact Or.inr rfl
      · exact h.seSt s hs'
    · intro x hx hx2; rw [hsn x hx] at hx2; split at hx2
      · exact Or.inr ‹_›
      · exact h.exec x hx hx2
    · intro s hs' h2; rw [hs] at h2; split at h2
      · rename_i h3
        rcases h3 with h3 | h3
        · exact absurd hs' (hts s h3)
        · obtain ⟨t, ht, hst⟩ := ses_mem.1 h3
          exact Or.inr (Or.inr ⟨t, ht, hst⟩)
      · exact h.execSE s hs' h2
    · intro c hc; rw [hs] at hc; split at hc
      · exact hc.elim
      · exact h.done c hc
    · intro h0 x hx; rw [hs] at hx; split at hx
      · cases hx
      · rcases h.pending h0 x hx with h1 | h1 | ⟨s, h1, h2⟩ | h1 | h1 | h1
        · exact Or.inl h1
        · exact Or.inr (Or.inl h1)
        · right; right; left; refine ⟨s, h1, h2.imp_left (hsub s)⟩
        · exact Or.inr (Or.inr (Or.inr (Or.inl h1)))
        · exact Or.inr (Or.inr (Or.inr (Or.inr (Or.inl h1))))
        · exact h1.elim
    · intro h0 c x hx hc; rw [hs] at hc; split at hc
      · cases hc
      · exact h.fresh h0 c x hx hc
    · intro h0 x hx; rw [hs]; split
      · right; right; left; simp
      · exact h.top h0 x hx
    · intro x hx; rw [hs] at hx; split at hx
      · cases hx
      · exact h.failed x hx
    · intro x hx; rw [hs]; split
      · simp [NState.rank]
      · exact h.started x hx

theorem InvE.handOut {C : Cfg V} {orig : List V} {S S' : St V} {n : V} {fate : Fate} {post : List V} (hC : C.WF)
    (hI : C.SEIso) (h : InvE C orig S (· = n) (fun _ => False)) (hn : ¬ C.isSE n)
    (hpn : S.state n = .pending) (hh : TM.handOut C S n fate post = some S') : InvE C orig S' (fun _ => False) (fun _ => False) := by
  have hts : ∀ x ∈ C.targets n, ¬ C.isSE x := hI.tgt n hn
  have hnt := hC.self n
  cases fate with
  | exc m => exact (h.mono (fun x hx => by rw [hx]; exact hnt)).failTask hts hh
  | excReady needs m => exact (h.makeReady needs hnt hts).failTask hts hh
  | internal res =>
    cases res with
    | some m => exact (h.makeReady false hnt hts).failTask hts hh
    | none =>
      refine (((h.makeReady false hnt hts).executed hts).postprocess hts ?_ ?_ hh).mono (fun x hx => hx.2 hx.1)
      · intro x hx _; rw [executed_state_nse (hts x hx)]
        simp [TM.makeReady, updOn_apply, hx]
      · intro _ x hx _ h1; rw [executed_state_nse (hts x hx)] at h1
        simp [TM.makeReady, updOn_apply, hx] at h1
  | start =>
    simp only [TM.handOut, Option.some.injEq] at hh
    have h1 := h.makeReady true hnt hts
    have hs : ∀ x ∈ C.targets n, (TM.makeReady C S (C.targets n) true).state x = .executing := by
      intro x hx; simp [TM.makeReady, updOn_apply, hx]
    have hs2 : ∀ s ∈ C.ses (C.targets n), (TM.makeReady C S (C.targets n) true).state s = .executing := by
      intro x hx; simp [TM.makeReady, updOn_apply, hx]
    have hnst : ∀ x ∈ C.targets n, x ∉ S.started := by
      intro x hx hx2
      have := h.startedRest.peer x hx2 n (by rw [hC.peers n x hx]; exact hnt)
      have := h.started n this
      rw [hpn] at this; simp [NState.rank] at this
    have hstd : (TM.makeReady C S (C.targets n) true).started = S.started := rfl
    generalize TM.makeReady C S (C.targets n) true = S1 at *
    rw [← hh]
    exact
      { h1 with
        seAct := by
          intro x hx
          rcases List.mem_cons.1 hx with rfl | hx
          · exact hn
          · exact h1.seAct x hx
        exec := by
          intro x hx hx2
          left
          rcases h1.exec x hx hx2 with ⟨m, hm, hxm⟩ | h2
          · exact ⟨m, by simp [hm], hxm⟩
          · exact ⟨n, by simp, h2⟩
        execSE := by
          intro s hs' h2
          rcases h1.execSE s hs' h2 with ⟨m, hm, hxm⟩ | h3 | ⟨x, hx, hsx⟩
          · exact Or.inl ⟨m, by simp [hm], hxm⟩
          · exact Or.inr (Or.inl h3)
          · exact Or.inl ⟨n, by simp, ses_mem.2 ⟨x, hx, hsx⟩⟩
        done := by
          intro c hc
          rcases h1.done c hc with h2 | h2
          · exact Or.inl h2
          · have : (S1.state c).done := hc
            rw [hs c h2] at this; exact this.elim
        pending := by
          intro h0 x hx
          rcases h1.pending h0 x hx with h2 | h2 | ⟨s, h2, h3⟩ | h2 | h2 | h2
          · exact Or.inl h2
          · exact Or.inr (Or.inl h2)
          · right; right; left; refine ⟨s, h2, ?_⟩
            rcases h3 with h3 | ⟨t, ht, hst⟩
            · exact Or.inl h3
            · left
              exact hs2 s (ses_mem.2 ⟨t, ht, hst⟩)
          · exact Or.inr (Or.inr (Or.inr (Or.inl h2)))
          · have : S1.state x = .pending := hx
            rw [hs x h2] at this; cases this
          · exact h2.elim
        startedRest :=
          { nse := by
              intro x hx
              rcases List.mem_append.1 hx with hx | hx
              · exact hts x hx
              · exact h1.startedRest.nse x hx
            act := by
              intro m hm x hx
              rcases List.mem_cons.1 hm with rfl | hm
              · exact List.mem_append.2 (Or.inl hx)
              · exact List.mem_append.2 (Or.inr (h1.startedRest.act m hm x hx))
            peer := by
              intro x hx m hm
              rcases List.mem_append.1 hx with hx | hx
              · rw [hC.peers n x hx] at hm; exact List.mem_append.2 (Or.inl hm)
              · exact List.mem_append.2 (Or.inr (h1.startedRest.peer x hx m hm))
            nodup := by
              refine List.nodup_append'.2 ⟨hC.nodup n, h1.startedRest.nodup, ?_⟩
              intro x hx hx2
              exact hnst x hx (hstd ▸ hx2)
            actNodup := by
              refine List.nodup_cons.2 ⟨fun h3 => ?_, h1.startedRest.actNodup⟩
              exact hnst n hnt (hstd ▸ h1.startedRest.act n h3 n hnt)
            actPeer := by
              intro k hk m hm hmk
              have hno : ∀ a ∈ C.targets n, a ∉ S1.started := fun a ha ha2 => hnst a ha (hstd ▸ ha2)
              rcases List.mem_cons.1 hk with rfl | hk' <;> rcases List.mem_cons.1 hm with rfl | hm'
              · rfl
              · exact absurd (h1.startedRest.act m hm' m (hC.self m)) (hno m hmk)
              · exact absurd (h1.startedRest.act k hk' _ hmk) (hno _ hnt)
              · exact h1.startedRest.actPeer k hk' m hm' hmk }
        started := by
          intro x hx
          rcases List.mem_append.1 hx with hx | hx
          · show 1 < (S1.state x).rank
            rw [hs x hx]; simp [NState.rank]
          · exact h1.started x hx }

/-! ### nextCandidate, considerNode -/

theorem InvE.nextCandidate {C : Cfg V} {orig : List V} {S S' : St V} {n : V} {alt : List V}
    (h : InvE C orig S (fun _ => False) (fun _ => False)) (halt : ∀ x ∈ alt, ¬ C.isSE x)
    (hn : TM.nextCandidate S alt = some (S', n)) :
    InvE C orig S' (fun _ => False) (· = n) ∧ ¬ C.isSE n := by
  unfold TM.nextCandidate at hn
  have key : ∀ (l tops' : List V) (cur : Option V), (∀ x ∈ l, ¬ C.isSE x) → ¬ C.isSE n → (∀ x ∈ tops', ¬ C.isSE x) →
      (∀ x ∈ cur, ¬ C.isSE x) → (∀ x ∈ S.cands, x ∈ l ∨ x = n) → (∀ x ∈ S.tops, x ∈ tops' ∨ x ∈ l ∨ x = n) →
      InvE C orig { S with cands := l, tops := tops', curTop := cur } (fun _ => False) (· = n) := by
    intro l tops' cur h1 h2 h3 hcur h4 h5
    exact
      { h with
        seCands := h1
        seTops := h3
        seCur := hcur
        pending := by
          intro h0 x hx
          rcases h.pending h0 x hx with h | h | h | h | h | h
          · rcases h4 x h with h | h
            · exact Or.inl h
            · exact Or.inr (Or.inr (Or.inr (Or.inr (Or.inr h))))
          · exact Or.inr (Or.inl h)
          · exact Or.inr (Or.inr (Or.inl h))
          · exact Or.inr (Or.inr (Or.inr (Or.inl h)))
          · exact h.elim
          · exact h.elim
        fresh := by
          intro h0 c x hx hc
          rcases h.fresh h0 c x hx hc with h | h
          · exact h4 c h
          · exact h.elim
        top := by
          intro h0 x hx
          rcases h.top h0 x hx with h | h | h | h
          · rcases h5 x h with h | h | h
            · exact Or.inl h
            · exact Or.inr (Or.inl h)
            · exact Or.inr (Or.inr (Or.inr h))
          · rcases h4 x h with h | h
            · exact Or.inr (Or.inl h)
            · exact Or.inr (Or.inr (Or.inr h))
          · exact Or.inr (Or.inr (Or.inl h))
          · exact h.elim }
  split at hn
  · rename_i m rest hc
    simp only [Option.some.injEq, Prod.mk.injEq] at hn
    obtain ⟨h1, rfl⟩ := hn
    have hm : ¬ C.isSE m := h.seCands m (by simp [hc])
    refine ⟨?_, hm⟩
    rw [← h1]
    refine key rest S.tops S.curTop (fun x hx => h.seCands x (by simp [hc, hx])) hm h.seTops h.seCur ?_ (fun x hx => Or.inl hx)
    intro x hx; rw [hc] at hx; simp at hx; tauto
  · rename_i hc
    split at hn
    · cases hn
    · rename_i t ts ht
      simp only at hn
      have htt : ¬ C.isSE t := h.seTops t (by simp [ht])
      split at hn
      · rename_i a r har
        simp only [Option.some.injEq, Prod.mk.injEq] at hn
        obtain ⟨h1, rfl⟩ := hn
        have hmem : ∀ x, x = a ∨ x ∈ r → ¬ C.isSE x := by
          intro x hx
          have : x ∈ alt.reverse ++ [t] := by rw [har]; simp [hx]
          simp only [List.mem_append, List.mem_reverse, List.mem_singleton] at this
          rcases this with h2 | rfl
          · exact halt x h2
          · exact htt
        refine ⟨?_, hmem a (Or.inl rfl)⟩
        rw [← h1]
        refine key r ts (some t) (fun x hx => hmem x (Or.inr hx)) (hmem a (Or.inl rfl))
          (fun x hx => h.seTops x (by simp [ht, hx])) (by simpa using htt) (by simp [hc]) ?_
        intro x hx; rw [ht] at hx
        rcases List.mem_cons.1 hx with rfl | hx
        · right
          have : x ∈ alt.reverse ++ [x] := by simp
          rw [har] at this; simp at this; tauto
        · exact Or.inl hx
      · cases hn

/-- Facts about a node found ready. -/
structure ReadyFacts (C : Cfg V) (S S' : St V) (n : V) (kids : List V) : Prop where
  was : S.state n = .noState ∨ S.state n = .pending
  now : S'.state n = .pending
  kidsDone : ∀ c, c ∈ C.prereqs n ∨ c ∈ kids → (S'.state c).done
  free : ∀ s ∈ C.ses (C.actTargets n), S'.state s ≠ .executing
  seen : ∀ c, c ∈ C.prereqs n ∨ c ∈ kids → c ∈ S'.seen n

theorem NState.rank_le_one {s : NState} : ¬ 1 < s.rank ↔ s = .noState ∨ s = .pending := by
  cases s <;> simp [NState.rank]

theorem NState.done_of {s : NState} (h1 : ¬ s.rank ≤ 2) (h2 : s ≠ .failed) : s.done := by
  cases s <;> simp_all [NState.rank, NState.done]

theorem NState.not_done_of_le {s : NState} (h1 : s.rank ≤ 2) : ¬ s.done := by
  cases s <;> simp_all [NState.rank, NState.done]

/-- marking the popped node PENDING -/
theorem InvE.setPending {C : Cfg V} {orig : List V} {S : St V} {n : V}
    (h : InvE C orig S (fun _ => False) (· = n)) (hn : ¬ C.isSE n) (hr : ¬ 1 < (S.state n).rank) :
    InvE C orig (markPending S n) (fun _ => False) (· = n) := by
  have hne : ∀ s, C.isSE s → s ≠ n := fun s hs h => hn (h ▸ hs)
  unfold markPending
  refine ⟨h.ref, h.origSE, h.seWp, h.seWp', h.seCands, h.seTops, h.seWse, h.wseSE, h.seCur, h.seAct, ?_, ?_, ?_, ?_, ?_, ?_, ?_, ?_, h.seen,
      h.seenPeer, h.seenSE, h.startedRest, ?_⟩
  · intro s hs; simp only [upd_apply, if_neg (hne s hs)]; exact h.seSt s hs
  · intro x hx hx2; simp only [upd_apply] at hx2; split at hx2
    · cases hx2
    · exact h.exec x hx hx2
  · intro s hs; simp only [upd_apply, if_neg (hne s hs)]; exact h.execSE s hs
  · intro c hc; simp only [upd_apply] at hc; split at hc
    · exact hc.elim
    · exact h.done c hc
  · intro h0 x hx; simp only [upd_apply] at hx; split at hx
    · right; right; right; right; right; assumption
    · rcases h.pending h0 x hx with h1 | h1 | ⟨s, h1, h2⟩ | h1 | h1 | h1
      · exact Or.inl h1
      · exact Or.inr (Or.inl h1)
      · right; right; left; refine ⟨s, h1, ?_⟩
        simp only [upd_apply, if_neg (hne s (h.wseSE _ _ h1))]; exact h2
      · exact Or.inr (Or.inr (Or.inr (Or.inl h1)))
      · exact Or.inr (Or.inr (Or.inr (Or.inr (Or.inl h1))))
      · exact absurd h1 ‹_›
  · intro h0 c x hx hc; simp only [upd_apply] at hc; split at hc
    · cases hc
    · exact h.fresh h0 c x hx hc
  · intro h0 x hx; simp only [upd_apply]; split
    · right; right; left; simp
    · exact h.top h0 x hx
  · intro x hx; simp only [upd_apply] at hx; split at hx
    · cases hx
    · exact h.failed x hx
  · intro x hx; simp only [upd_apply]; split
    · rename_i h1; subst h1; exact absurd (h.started x hx) hr
    · exact h.started x hx

theorem pushKids_seen_sub {C : Cfg V} {S : St V} {n : V} {all pushed : List V}
    (h : ∀ n m, m ∈ C.targets n → S.seen m = S.seen n) (x : V) :
    S.seen x ⊆ (pushKids C S n all pushed).seen x := by
  simp only [pushKids, updOn_apply]; split
  · rw [h n x ‹_›]; exact Finset.subset_union_left
  · exact Finset.Subset.refl _

theorem pushKids_seenPeer {C : Cfg V} (hC : C.WF) {S : St V} {n : V} {all pushed : List V}
    (h : ∀ n m, m ∈ C.targets n → S.seen m = S.seen n) :
    ∀ a b, b ∈ C.targets a → (pushKids C S n all pushed).seen b = (pushKids C S n all pushed).seen a := by
  intro a b hab
  have hab' := hC.peers a b hab
  simp only [pushKids, updOn_apply]
  by_cases ha : a ∈ C.targets n
  · have hb : b ∈ C.targets n := by rw [← hC.peers n a ha]; exact hab
    rw [if_pos ha, if_pos hb]
  · have hb : b ∉ C.targets n := by
      intro hb; apply ha
      rw [← hC.peers n b hb, hab']; exact hC.self a
    rw [if_neg ha, if_neg hb]; exact h a b hab

/-- pushing candidates and recording the scan -/
theorem InvE.push {C : Cfg V} {orig : List V} {S : St V} {n : V} {E Q : V → Prop} (hC : C.WF)
    (h : InvE C orig S E Q) (all pushed : List V) (hl : ∀ x ∈ pushed, ¬ C.isSE x)
    (hA : ∀ x ∈ all, ¬ C.isSE x) :
    InvE C orig (pushKids C S n all pushed) E Q := by
  have hsub := pushKids_seen_sub (all := all) (pushed := pushed) (n := n) h.seenPeer
  exact
    { h with
      seCands := by
        intro x hx
        rcases List.mem_append.1 hx with hx | hx
        · exact hl x (List.mem_reverse.1 hx)
        · exact h.seCands x hx
      pending := by
        intro h0 x hx
        rcases h.pending h0 x hx with h1 | h1 | h1 | h1 | h1 | h1
        · left; simp [pushKids, h1]
        · exact Or.inr (Or.inl h1)
        · exact Or.inr (Or.inr (Or.inl h1))
        · exact Or.inr (Or.inr (Or.inr (Or.inl (Bad.mono (S := S) (S' := pushKids C S n all pushed) (Finset.Subset.refl _) hsub h1))))
        · exact Or.inr (Or.inr (Or.inr (Or.inr (Or.inl h1))))
        · exact Or.inr (Or.inr (Or.inr (Or.inr (Or.inr h1))))
      fresh := by
        intro h0 c x hx hc
        rcases h.fresh h0 c x hx hc with h1 | h1
        · left; simp [pushKids, h1]
        · exact Or.inr h1
      top := by
        intro h0 x hx
        rcases h.top h0 x hx with h1 | h1 | h1 | h1
        · exact Or.inl h1
        · right; left; simp [pushKids, h1]
        · exact Or.inr (Or.inr (Or.inl h1))
        · exact Or.inr (Or.inr (Or.inr h1))
      failed := fun x hx => Bad.mono (S := S) (S' := pushKids C S n all pushed) (Finset.Subset.refl _) hsub (h.failed x hx)
      seen := fun c x hx => hsub x (h.seen c x hx)
      seenPeer := pushKids_seenPeer hC h.seenPeer
      seenSE := by
        intro x c hc
        simp only [pushKids, updOn_apply] at hc; split at hc
        · rcases Finset.mem_union.1 hc with hc | hc
          · exact h.seenSE n c hc
          · exact hA c (List.mem_toFinset.1 hc)
        · exact h.seenSE x c hc }

theorem InvE.judge {C : Cfg V} {orig : List V} {S S' : St V} {n : V} {all : List V} {o : Outcome}
    (hC : C.WF) (hI : C.SEIso) (h : InvE C orig S (fun _ => False) (· = n)) (hn : ¬ C.isSE n)
    (hall : ∀ x ∈ all, ¬ C.isSE x) (hpn : S.state n = .pending)
    (hseen : ∀ m ∈ C.targets n, ∀ c ∈ all, c ∈ S.seen m)
    (hpush : ∀ c ∈ all, S.state c = .noState → c ∈ S.cands)
    (hj : TM.judge C S n all = (S', o)) :
    (o = .skip → InvE C orig S' (fun _ => False) (fun _ => False)) ∧
    (o = .ready → S' = S) ∧ o ≠ .raised := by
  have hnq : ∀ x, x = n → S.state x ≠ .noState := by rintro x rfl; rw [hpn]; simp
  have hfresh : S.stopped = false → ∀ c x, x ∈ S.wp c → S.state c = .noState → c ∈ S.cands := by
    intro h0 c x hx hc
    rcases h.fresh h0 c x hx hc with h1 | h1
    · exact h1
    · exact absurd hc (hnq c h1)
  have htop : S.stopped = false → ∀ x ∈ orig, x ∈ S.tops ∨ x ∈ S.cands ∨ S.state x ≠ .noState := by
    intro h0 x hx
    rcases h.top h0 x hx with h1 | h1 | h1 | h1
    · exact Or.inl h1
    · exact Or.inr (Or.inl h1)
    · exact Or.inr (Or.inr h1)
    · exact Or.inr (Or.inr (hnq x h1))
  unfold TM.judge at hj
  split at hj
  · -- some child failed
    rename_i hany
    simp only [Prod.mk.injEq] at hj
    obtain ⟨rfl, rfl⟩ := hj
    refine ⟨fun _ => ?_, by simp, by simp⟩
    simp only [List.any_eq_true, decide_eq_true_eq] at hany
    obtain ⟨c0, hc0, hc0f⟩ := hany
    have hbadm : ∀ m ∈ C.targets n, Bad S m := fun m hm =>
      Bad.seen_step (hseen m hm c0 hc0) (h.failed c0 hc0f)
    have hact : ∀ m ∈ C.actTargets n, ¬ C.isSE m := fun m hm => hI.tgt n hn m (hC.act n m hm)
    have hne : ∀ s, C.isSE s → s ∉ C.actTargets n := fun s hs h => hact s h hs
    refine ⟨h.ref, h.origSE, h.seWp, h.seWp', h.seCands, h.seTops, h.seWse, h.wseSE, h.seCur, h.seAct, ?_, ?_, ?_, ?_, ?_, ?_, ?_, ?_, h.seen,
      h.seenPeer, h.seenSE, h.startedRest, ?_⟩
    · intro s hs; simp only [updOn_apply, if_neg (hne s hs)]; exact h.seSt s hs
    · intro x hx hx2; simp only [updOn_apply] at hx2; split at hx2
      · cases hx2
      · exact h.exec x hx hx2
    · intro s hs; simp only [updOn_apply, if_neg (hne s hs)]; exact h.execSE s hs
    · intro c hc; simp only [updOn_apply] at hc; split at hc
      · exact hc.elim
      · exact h.done c hc
    · intro h0 x hx; simp only [updOn_apply] at hx; split at hx
      · cases hx
      · rcases h.pending h0 x hx with h3 | h3 | ⟨s, h3, h4⟩ | h3 | h3 | h3
        · exact Or.inl h3
        · exact Or.inr (Or.inl h3)
        · right; right; left; refine ⟨s, h3, ?_⟩
          simp only [updOn_apply, if_neg (hne s (h.wseSE _ _ h3))]
          exact h4
        · exact Or.inr (Or.inr (Or.inr (Or.inl h3)))
        · exact h3.elim
        · right; right; right; left; rw [h3]; exact hbadm n (hC.self n)
    · intro h0 c x hx hc; simp only [updOn_apply] at hc; split at hc
      · cases hc
      · exact Or.inl (hfresh h0 c x hx hc)
    · intro h0 x hx; simp only [updOn_apply]; split
      · right; right; left; simp
      · have := htop h0 x hx; tauto
    · intro x hx; simp only [updOn_apply] at hx; split at hx
      · exact hbadm x (hC.act n x ‹_›)
      · exact h.failed x hx
    · intro x hx; simp only [updOn_apply]; split
      · simp [NState.rank]
      · exact h.started x hx
  · simp only at hj
    split at hj
    · -- children not ready
      rename_i hnr
      generalize hNR : all.filter (fun c => (S.state c).rank ≤ 2) = NR at *
      have hNRm : ∀ c, c ∈ NR ↔ c ∈ all ∧ (S.state c).rank ≤ 2 := by
        intro c; rw [← hNR]; simp
      simp only [Prod.mk.injEq] at hj
      obtain ⟨rfl, rfl⟩ := hj
      refine ⟨fun _ => ?_, by simp, by simp⟩
      obtain ⟨f1, f2, f3, f4, f5, f6, f7, f8, f9, f10, f11, f12, f13⟩ := addWaiting_fields n NR S
      have fwp := addWaiting_wp n NR S
      have fref := addWaiting_ref n NR S h.ref
      generalize addWaiting n NR S = S2 at *
      have hbad : ∀ x, Bad { S2 with pend := S2.pend ∪ (all.filter (fun c => S.state c = .pending)).toFinset } x ↔ Bad S x := by
        intro x; unfold Bad; simp only [f10, f11]
      have hwpm : ∀ c x, x ∈ S2.wp c ↔ x ∈ S.wp c ∨ (x = n ∧ c ∈ NR) := by
        intro c x; rw [fwp]; split
        · rename_i h1; simp [h1]; tauto
        · rename_i h1; simp [h1]
      refine ⟨fref, h.origSE, ?_, ?_, ?_, ?_, ?_, ?_, ?_, ?_, ?_, ?_, ?_, ?_, ?_, ?_, ?_, ?_, ?_, ?_, ?_, ?_, ?_⟩
      · intro s hs; simp only [fwp]
        rw [if_neg (fun h1 => hall s ((hNRm s).1 h1).1 hs)]; exact h.seWp s hs
      · intro c x hx
        rcases (hwpm c x).1 hx with h1 | h1
        · exact h.seWp' c x h1
        · rw [h1.1]; exact hn
      · simp only [f3]; exact h.seCands
      · simp only [f4]; exact h.seTops
      · simp only [f2]; exact h.seWse
      · simp only [f2]; exact h.wseSE
      · simp only [f5]; exact h.seCur
      · simp only [f8]; exact h.seAct
      · simp only [f1]; exact h.seSt
      · simp only [f1, f8]; exact h.exec
      · simp only [f1, f8, f7]; exact h.execSE
      · intro c hc; simp only [f1] at hc
        rcases h.done c hc with h1 | h1
        · left; simp only [fwp]
          rw [if_neg]; exact h1
          intro h2; exact NState.not_done_of_le ((hNRm c).1 h2).2 hc
        · exact h1.elim
      · intro h0 x hx
        simp only [f1] at hx; simp only [f7] at h0
        rcases h.pending h0 x hx with h3 | ⟨c, h3⟩ | ⟨s, h3, h4⟩ | h3 | h3 | h3
        · left; simp only [f3]; exact h3
        · right; left; exact ⟨c, (hwpm c x).2 (Or.inl h3)⟩
        · right; right; left; refine ⟨s, by simp only [f2]; exact h3, by simp only [f1]; exact h4⟩
        · right; right; right; left; exact (hbad x).2 h3
        · exact h3.elim
        · right; left
          obtain ⟨c, hc⟩ := List.exists_mem_of_ne_nil _ hnr
          exact ⟨c, (hwpm c x).2 (Or.inr ⟨h3, hc⟩)⟩
      · intro h0 c x hx hc
        simp only [f1] at hc; simp only [f7] at h0; simp only [f3]
        left
        rcases (hwpm c x).1 hx with h1 | h1
        · exact hfresh h0 c x h1 hc
        · exact hpush c ((hNRm c).1 h1.2).1 hc
      · intro h0 x hx
        simp only [f7] at h0; simp only [f4, f3, f1]
        have := htop h0 x hx; tauto
      · intro x hx; simp only [f1] at hx; exact (hbad x).2 (h.failed x hx)
      · intro c x hx
        simp only [f11]
        rcases (hwpm c x).1 hx with h1 | h1
        · exact h.seen c x h1
        · rw [h1.1]; exact hseen n (hC.self n) c ((hNRm c).1 h1.2).1
      · simp only [f11]; exact h.seenPeer
      · simp only [f11]; exact h.seenSE
      · simp only [f8, f9]; exact h.startedRest
      · simp only [f9, f1]; exact h.started
    · split at hj
      · -- busy side effects
        rename_i hnr hb
        generalize hB : (C.ses (C.actTargets n)).filter (fun s => S.state s = NState.executing) = B at *
        have hBm : ∀ s, s ∈ B ↔ s ∈ C.ses (C.actTargets n) ∧ S.state s = .executing := by
          intro s; rw [← hB]; simp
        simp only [Prod.mk.injEq] at hj
        obtain ⟨rfl, rfl⟩ := hj
        refine ⟨fun _ => ?_, by simp, by simp⟩
        have hw : ∀ s x, x ∈ (if s ∈ B then insert n (S.wse s) else S.wse s) ↔ x ∈ S.wse s ∨ (x = n ∧ s ∈ B) := by
          intro s x; split
          · rename_i h1; simp [h1]; tauto
          · rename_i h1; simp [h1]
        exact
          { h with
            seWse := by
              intro s x hx
              rcases (hw s x).1 hx with h1 | h1
              · exact h.seWse s x h1
              · rw [h1.1]; exact hn
            wseSE := by
              intro s x hx
              rcases (hw s x).1 hx with h1 | h1
              · exact h.wseSE s x h1
              · exact isSE_of_ses ((hBm s).1 h1.2).1
            pending := by
              intro h0 x hx
              rcases h.pending h0 x hx with h3 | h3 | ⟨s, h3, h4⟩ | h3 | h3 | h3
              · exact Or.inl h3
              · exact Or.inr (Or.inl h3)
              · right; right; left; exact ⟨s, (hw s x).2 (Or.inl h3), h4⟩
              · exact Or.inr (Or.inr (Or.inr (Or.inl h3)))
              · exact h3.elim
              · right; right; left
                obtain ⟨s, hs⟩ := List.exists_mem_of_ne_nil _ hb
                exact ⟨s, (hw s x).2 (Or.inr ⟨h3, hs⟩), Or.inl ((hBm s).1 hs).2⟩
            fresh := fun h0 c x hx hc => Or.inl (hfresh h0 c x hx hc)
            top := fun h0 x hx => by have := htop h0 x hx; tauto }
      · simp only [Prod.mk.injEq] at hj
        obtain ⟨rfl, rfl⟩ := hj
        exact ⟨by simp, fun _ => rfl, by simp⟩

theorem InvE.considerNode {C : Cfg V} {orig : List V} {S S' : St V} {n : V} {scan : Scan V} {pushed : List V} {o : Outcome}
    (hC : C.WF) (hI : C.SEIso) (h : InvE C orig S (fun _ => False) (· = n)) (hn : ¬ C.isSE n)
    (hscan : ∀ kids, scan = .ok kids → ∀ x ∈ kids, ¬ C.isSE x)
    (hc : TM.considerNode C S n scan pushed = some (S', o)) :
    InvE C orig S' (if o = .skip then (fun _ => False) else (· = n)) (fun _ => False) ∧
    (o ≠ .skip → S'.state n = .pending) := by
  unfold TM.considerNode at hc
  split at hc
  · rename_i hr
    simp only [Option.some.injEq, Prod.mk.injEq] at hc
    obtain ⟨rfl, rfl⟩ := hc
    simp only [if_true]
    refine ⟨h.monoQ ?_ ?_, by simp⟩
    · rintro x rfl h1; rw [h1] at hr; simp [NState.rank] at hr
    · rintro x rfl h1; rw [h1] at hr; simp [NState.rank] at hr
  · rename_i hr
    have h1 := h.setPending hn hr
    have hpn : (markPending S n).state n = .pending := by simp [markPending]
    generalize markPending S n = Sp at *
    cases scan with
    | raised =>
      simp only [Option.some.injEq, Prod.mk.injEq] at hc
      obtain ⟨rfl, rfl⟩ := hc
      simp only [reduceCtorEq, if_false]
      refine ⟨(h1.mono (E' := (· = n)) (fun _ h => h.elim)).monoQ ?_ (fun _ h _ => h), fun _ => hpn⟩
      rintro x rfl; rw [hpn]; simp
    | ok kids =>
      simp only at hc
      have hall : ∀ x ∈ C.prereqs n ++ kids, ¬ C.isSE x := by
        intro x hx
        rcases List.mem_append.1 hx with hx | hx
        · exact hI.pre n x hx
        · exact hscan kids rfl x hx
      generalize hallE : C.prereqs n ++ kids = all at *
      split at hc
      case isFalse => cases hc
      case isTrue hpush =>
      have hpm : ∀ x, x ∈ pushed ↔ x ∈ all ∧ Sp.state x = .noState := by
        intro x
        rw [← List.mem_toFinset, hpush, List.mem_toFinset, List.mem_filter, decide_eq_true_eq]
      have h2 := h1.push hC (n := n) all pushed (fun x hx => hall x ((hpm x).1 hx).1) hall
      simp only [Option.some.injEq] at hc
      have h3 := h2.judge hC hI hn hall hpn (fun m hm c hc => by simp [pushKids, updOn_apply, hm, hc])
        (fun c hc hc2 => by simp only [pushKids, List.mem_append, List.mem_reverse]; exact Or.inl ((hpm c).2 ⟨hc, hc2⟩)) hc
      cases o with
      | skip => exact ⟨by simpa using h3.1 rfl, by simp⟩
      | raised => exact absurd rfl h3.2.2
      | ready =>
        rw [h3.2.1 rfl]
        simp only [reduceCtorEq, if_false]
        refine ⟨(h2.mono (E' := (· = n)) (fun _ h => h.elim)).monoQ ?_ (fun _ h _ => h), fun _ => hpn⟩
        rintro x rfl h5; simp [pushKids, hpn] at h5

/-! ### every step -/

abbrev Inv (C : Cfg V) (orig : List V) (S : St V) : Prop := InvE C orig S (fun _ => False) (fun _ => False)

theorem InvE.clock {C : Cfg V} {orig : List V} {S : St V} {E Q : V → Prop} (h : InvE C orig S E Q) (k : Nat) :
    InvE C orig { S with clock := k } E Q := { h with }

theorem Inv.init {C : Cfg V} {orig : List V} (h : ∀ x ∈ orig, ¬ C.isSE x) : Inv C orig (St.init orig) := by
  have : StartedRest C ([] : List V) [] := by constructor <;> simp
  constructor <;> simp_all [St.init, cnt, NState.done]

theorem Inv.finishPre {C : Cfg V} {orig : List V} {S : St V} {n : V} (h : Inv C orig S) (hact : n ∈ S.active) :
    InvE C orig { S with active := S.active.erase n, clock := S.clock + 1 } (· ∈ C.targets n) (fun _ => False) :=
  { h with
    seAct := fun x hx => h.seAct x (List.mem_of_mem_erase hx)
    exec := by
      intro x hx hx2
      rcases h.exec x hx hx2 with ⟨m, hm, hxm⟩ | h1
      · by_cases hmn : m = n
        · right; rw [← hmn]; exact hxm
        · left; exact ⟨m, (List.mem_erase_of_ne hmn).2 hm, hxm⟩
      · exact h1.elim
    execSE := by
      intro s hs hs2
      rcases h.execSE s hs hs2 with ⟨m, hm, hxm⟩ | h1 | ⟨x, h1, _⟩
      · by_cases hmn : m = n
        · right; right; subst hmn
          obtain ⟨t, ht, hst⟩ := ses_mem.1 hxm
          exact ⟨t, ht, hst⟩
        · left; exact ⟨m, (List.mem_erase_of_ne hmn).2 hm, hxm⟩
      · exact Or.inr (Or.inl h1)
      · exact h1.elim
    done := fun c hc => (h.done c hc).imp_right (fun h => h.elim)
    pending := by
      intro h0 x hx
      rcases h.pending h0 x hx with h3 | h3 | ⟨s, h3, h4⟩ | h3 | h3 | h3
      · exact Or.inl h3
      · exact Or.inr (Or.inl h3)
      · right; right; left; exact ⟨s, h3, h4.imp_right (fun ⟨_, h, _⟩ => h.elim)⟩
      · exact Or.inr (Or.inr (Or.inr (Or.inl h3)))
      · exact h3.elim
      · exact h3.elim
    startedRest :=
      { h.startedRest with
        act := fun m hm x hx => h.startedRest.act m (List.mem_of_mem_erase hm) x hx
        actNodup := h.startedRest.actNodup.erase _
        actPeer := fun k hk m hm h3 =>
          h.startedRest.actPeer k (List.mem_of_mem_erase hk) m (List.mem_of_mem_erase hm) h3 } }

theorem Inv.step {C : Cfg V} {orig : List V} {S S' : St V} {l : Lab V} (hC : C.WF) (hI : C.SEIso)
    (h : Inv C orig S) (hl : l.noSE C) (hs : TM.step C S l = some S') : Inv C orig S' := by
  cases l with
  | consider alt scan pushed fate post =>
    simp only [TM.step] at hs
    split at hs
    · cases hs
    split at hs
    · cases hs
    rename_i S1 n hnc
    obtain ⟨h1, hn⟩ := InvE.nextCandidate h hl.1 hnc
    split at hs
    · cases hs
    · rename_i S2 hcn
      have h2 := h1.considerNode hC hI hn hl.2 hcn
      simp only [Option.some.injEq] at hs
      rw [← hs]
      exact InvE.clock (by simpa using h2.1) _
    · rename_i S2 hcn
      have h2 := h1.considerNode hC hI hn hl.2 hcn
      simp only [reduceCtorEq, if_false, ne_eq, not_false_eq_true, true_implies] at h2
      split at hs
      · rw [Option.map_eq_some_iff] at hs
        obtain ⟨S3, hS3, rfl⟩ := hs
        exact InvE.clock (h2.1.handOut hC hI hn h2.2 hS3) _
      · cases hs
    · rename_i S2 hcn
      have h2 := h1.considerNode hC hI hn hl.2 hcn
      simp only [reduceCtorEq, if_false, ne_eq, not_false_eq_true, true_implies] at h2
      rw [Option.map_eq_some_iff] at hs
      obtain ⟨S3, hS3, rfl⟩ := hs
      exact InvE.clock (h2.1.handOut hC hI hn h2.2 hS3) _
  | finish n res post =>
    simp only [TM.step] at hs
    split at hs
    case isFalse => cases hs
    case isTrue hact =>
    have hn := h.seAct n hact
    have hts : ∀ x ∈ C.targets n, ¬ C.isSE x := hI.tgt n hn
    have h1 := Inv.finishPre h hact
    split at hs
    · -- success: the targets of an active task that are still executing become executed
      have h2 := h1.executed hts
      refine (h2.postprocess hts ?_ ?_ hs).mono (fun x hx => hx.2 hx.1)
      · intro x hx _; rw [executed_state_nse (hts x hx)]; split
        · simp
        · rename_i h5; exact fun h6 => h5 ⟨hx, h6⟩
      · intro _ x hx _ hx2
        have := h2.started x (h.startedRest.act n hact x hx)
        rw [hx2] at this; simp [NState.rank] at this
    · exact h1.failTask hts hs
  | flush =>
    simp only [TM.step] at hs
    split at hs
    case isFalse => cases hs
    case isTrue hst =>
    simp only [Option.some.injEq] at hs
    rw [← hs]
    apply InvE.clock
    have h1 : Inv C orig { S with cands := [] } :=
      { h with
        seCands := by simp
        pending := fun h0 => by simp [hst] at h0
        fresh := fun h0 => by simp [hst] at h0
        top := fun h0 => by simp [hst] at h0 }
    exact h1.wnb _ false (fun x hx => h.seCands x (List.mem_toFinset.1 hx)) (by simp) (fun _ => hst)
  | interrupt =>
    simp only [TM.step, Option.some.injEq] at hs
    rw [← hs]
    exact
      { h with
        execSE := fun s hs hs2 => Or.inr (Or.inl rfl)
        pending := fun h0 => by cases h0
        fresh := fun h0 => by cases h0
        top := fun h0 => by cases h0 }

end Verif.TM
