import Verif.TM.Inv2

/-! Second invariant, for runs in which re-scanning a node never *forgets* a dependency reported earlier. -/

set_option linter.unusedSectionVars false
set_option linter.unusedSimpArgs false
set_option linter.unusedVariables false

namespace Verif.TM
variable {V : Type} [DecidableEq V] [Fintype V]

/-- The scan result of the node about to be considered includes what earlier scans of it reported. -/
def Lab.scanGrows (C : Cfg V) (S : St V) : Lab V → Prop
  | .consider alt scan _ _ _ =>
    ∀ S1 n kids, nextCandidate S alt = some (S1, n) → scan = .ok kids → ∀ c ∈ S.seen n, c ∈ C.prereqs n ++ kids
  | _ => True

/-- The label contains no failure handled in `--ignore-errors` mode. -/
def Lab.noIgnore : Lab V → Prop
  | .consider _ _ _ (.exc .ignore) _ => False
  | .consider _ _ _ (.excReady _ .ignore) _ => False
  | .consider _ _ _ (.internal (some .ignore)) _ => False
  | .finish _ (some .ignore) _ => False
  | _ => True

/-- executing or done -/
def NState.past : NState → Prop
  | .executing => True | .upToDate => True | .executed => True | _ => False

theorem NState.past_of_done {s : NState} (h : s.done) : s.past := by cases s <;> simp_all [NState.done, NState.past]
theorem NState.not_past_of {s : NState} (h : s = .pending ∨ s = .failed ∨ s = .noState) : ¬ s.past := by
  rcases h with h | h | h <;> simp [h, NState.past]

structure MInv (C : Cfg V) (ni : Prop) (S : St V) (E : V → Prop) : Prop where
  waiting : ∀ c x, x ∈ S.wp c → S.state x = .pending ∨ S.state x = .failed
  deps : ∀ x, ¬ C.isSE x → x ∈ S.started ∨ (S.state x).past → ∀ c ∈ S.seen x, (S.state c).done ∧ ¬ E c
  failed : ∀ x, S.state x = .failed → (∀ m ∈ C.targets x, S.state m = .failed) ∨ ∃ c ∈ S.seen x, S.state c = .failed
  ftask : ni → ∀ f ∈ S.failedTasks, S.state f = .failed
  past : ∀ x, ¬ C.isSE x → (S.state x).past → ∀ m ∈ C.targets x, (S.state m).past

theorem MInv.congr {C : Cfg V} {ni : Prop} {S S' : St V} {E : V → Prop} (h : MInv C ni S E)
    (h1 : S'.wp = S.wp) (h2 : S'.state = S.state) (h3 : S'.started = S.started) (h4 : S'.seen = S.seen)
    (h5 : S'.failedTasks = S.failedTasks) : MInv C ni S' E := by
  constructor
  · rw [h1, h2]; exact h.waiting
  · rw [h2, h3, h4]; exact h.deps
  · rw [h2, h4]; exact h.failed
  · rw [h2, h5]; exact h.ftask
  · rw [h2]; exact h.past

theorem MInv.postprocess {C : Cfg V} {ni : Prop} {orig : List V} {S S' : St V} {E : V → Prop} {ts post : List V}
    (hi : InvE C orig S E (fun _ => False)) (h : MInv C ni S E)
    (hft : ∀ f ∈ S.failedTasks, ¬ C.isSE f) (hI : C.SEIso)
    (hp : TM.postprocess C S ts post = some S') (E' : V → Prop) (hE' : ∀ x, E' x → E x) : MInv C ni S' E' := by
  unfold TM.postprocess at hp
  simp only at hp
  split at hp
  case isFalse => cases hp
  case isTrue hpost =>
  injection hp with hp
  have hst : ∀ x, ¬ C.isSE x → S'.state x = S.state x := by
    intro x hx; rw [← hp]; simp only [updOn_apply]
    rw [if_neg]; rintro ⟨h1, _⟩; exact hx (isSE_of_ses (List.mem_toFinset.1 h1))
  have hstf : ∀ x, S'.state x = .failed → S.state x = .failed ∧ ¬ C.isSE x := by
    intro x hx
    by_cases hs : C.isSE x
    · rw [← hp] at hx; simp only [updOn_apply] at hx; split at hx
      · cases hx
      · rcases hi.seSt x hs with h1 | h1 <;> rw [h1] at hx <;> cases hx
    · rw [hst x hs] at hx; exact ⟨hx, hs⟩
  have hwp : ∀ c x, x ∈ S'.wp c → x ∈ S.wp c := by
    intro c x hx; rw [← hp] at hx; simp only at hx; rw [updOn_apply] at hx; split at hx
    · simp at hx
    · exact hx
  have hsn : S'.seen = S.seen := by rw [← hp]
  have hstd : S'.started = S.started := by rw [← hp]
  have hf : S'.failedTasks = S.failedTasks := by rw [← hp]
  constructor
  · intro c x hx
    have := hwp c x hx
    rw [hst x (hi.seWp' c x this)]; exact h.waiting c x this
  · intro x hx h1 c hc
    rw [hstd, hst x hx] at h1; rw [hsn] at hc
    rw [hst c (hi.seenSE x c hc)]
    have := h.deps x hx h1 c hc
    exact ⟨this.1, fun h2 => this.2 (hE' c h2)⟩
  · intro x hx
    obtain ⟨h1, h2⟩ := hstf x hx
    rcases h.failed x h1 with h3 | ⟨c, hc, h3⟩
    · left; intro m hm; rw [hst m (hI.tgt x h2 m hm)]; exact h3 m hm
    · right; refine ⟨c, by rw [hsn]; exact hc, ?_⟩
      rw [hst c (hi.seenSE x c hc)]; exact h3
  · intro hni f hff; rw [hf] at hff; rw [hst f (hft f hff)]; exact h.ftask hni f hff
  · intro x hx h1 m hm; rw [hst x hx] at h1; rw [hst m (hI.tgt x hx m hm)]; exact h.past x hx h1 m hm

theorem MInv.executed {C : Cfg V} {ni : Prop} {orig : List V} {S : St V} {E Q : V → Prop} {ts : List V}
    (hi : InvE C orig S E Q) (h : MInv C ni S E) (hI : C.SEIso) (hts : ∀ x ∈ ts, ¬ C.isSE x)
    (hft : ∀ f ∈ S.failedTasks, ¬ C.isSE f) :
    MInv C ni (executed C S ts) E := by
  have o := executed_only C S ts
  have hs : ∀ x, ¬ C.isSE x → (TM.executed C S ts).state x
      = if x ∈ ts ∧ S.state x = .executing then .executed else S.state x := fun x hx => executed_state_nse hx
  have hse : ∀ x, C.isSE x → (TM.executed C S ts).state x ≠ .failed := by
    intro x hx h1
    rcases executed_state_se (S := S) hts hx with h2 | h2
    · rw [h2] at h1; cases h1
    · rw [h2] at h1
      rcases hi.seSt x hx with h3 | h3 <;> rw [h3] at h1 <;> cases h1
  have hne : ∀ x, ¬ C.isSE x → S.state x ≠ .executing → (TM.executed C S ts).state x = S.state x := by
    intro x hx h1; rw [hs x hx, if_neg (fun h => h1 h.2)]
  have hpast : ∀ x, ¬ C.isSE x → (((TM.executed C S ts).state x).past ↔ (S.state x).past) := by
    intro x hx; rw [hs x hx]; split
    · rename_i h1; simp [NState.past, h1.2]
    · rfl
  have hfl : ∀ x, ¬ C.isSE x → ((TM.executed C S ts).state x = .failed ↔ S.state x = .failed) := by
    intro x hx; rw [hs x hx]; split
    · rename_i h1; simp [h1.2]
    · rfl
  generalize TM.executed C S ts = S' at *
  constructor
  · intro c x hx; rw [o.wp] at hx
    have h1 := h.waiting c x hx
    rw [hne x (hi.seWp' c x hx) (by rcases h1 with h1 | h1 <;> rw [h1] <;> simp)]; exact h1
  · intro x hx h1 c hc
    rw [o.started, hpast x hx] at h1; rw [o.seen] at hc
    have h2 := h.deps x hx h1 c hc
    rw [hne c (hi.seenSE x c hc) (by intro h3; rw [h3] at h2; exact h2.1)]; exact h2
  · intro x hx
    have hxse : ¬ C.isSE x := fun h1 => hse x h1 hx
    rw [hfl x hxse] at hx
    rcases h.failed x hx with h3 | ⟨c, hc, h3⟩
    · left; intro m hm; rw [hfl m (hI.tgt x hxse m hm)]; exact h3 m hm
    · right; refine ⟨c, by rw [o.seen]; exact hc, ?_⟩
      rw [hfl c (hi.seenSE x c hc)]; exact h3
  · intro hni f hff; rw [o.failedTasks] at hff; rw [hfl f (hft f hff)]; exact h.ftask hni f hff
  · intro x hx h1 m hm; rw [hpast x hx] at h1; rw [hpast m (hI.tgt x hx m hm)]; exact h.past x hx h1 m hm

/-- `will_not_build(..., FAILED)` on the targets of a task (closed under co-targets). -/
theorem MInv.wnbMark {C : Cfg V} {ni : Prop} {orig : List V} {S : St V} {E Q : V → Prop} {A : Finset V}
    (hC : C.WF) (hi : InvE C orig S E Q) (h : MInv C ni S E) (hA : ∀ x ∈ A, ¬ C.isSE x)
    (hAE : ∀ x ∈ A, E x) (hcl : ∀ x ∈ A, ∀ m ∈ C.targets x, m ∈ A) (F : Finset V) (hF : F ⊆ A) :
    MInv C ni (willNotBuild { S with failedTasks := S.failedTasks ∪ F } A true) E := by
  have hU1 : ∀ x ∈ upSet S.wp A, ¬ C.isSE x := upSet_ind _ _ _ hA (fun c p _ hp => hi.seWp' c p hp)
  have hU3 : ∀ x ∈ upSet S.wp A, x ∈ A ∨ S.state x = .pending ∨ S.state x = .failed :=
    upSet_ind _ _ _ (fun x hx => Or.inl hx) (fun c p _ hp => Or.inr (h.waiting c p hp))
  have hU4 : ∀ x ∈ upSet S.wp A, x ∈ A ∨ ∃ c ∈ upSet S.wp A, x ∈ S.wp c := by
    have := upSet_ind S.wp A (fun x => x ∈ upSet S.wp A ∧ (x ∈ A ∨ ∃ c ∈ upSet S.wp A, x ∈ S.wp c))
      (fun x hx => ⟨subset_upSet _ _ hx, Or.inl hx⟩)
      (fun c p hc hp => ⟨upSet_closed _ _ c hc.1 p hp, Or.inr ⟨c, hc.1, hp⟩⟩)
    exact fun x hx => (this x hx).2
  have hAU := subset_upSet S.wp A
  have hst : ∀ x, (willNotBuild { S with failedTasks := S.failedTasks ∪ F } A true).state x
      = if x ∈ upSet S.wp A then .failed else S.state x := fun x => rfl
  have hwp : ∀ c x, x ∈ (willNotBuild { S with failedTasks := S.failedTasks ∪ F } A true).wp c → x ∈ S.wp c := by
    intro c x hx; simp only [willNotBuild, updOn_apply] at hx; split at hx
    · simp at hx
    · exact hx
  have hpast : ∀ x, ((willNotBuild { S with failedTasks := S.failedTasks ∪ F } A true).state x).past →
      x ∉ upSet S.wp A ∧ (S.state x).past := by
    intro x hx; rw [hst] at hx; split at hx
    · exact hx.elim
    · exact ⟨‹_›, hx⟩
  constructor
  · intro c x hx; rw [hst]; split
    · exact Or.inr rfl
    · exact h.waiting c x (hwp c x hx)
  · intro x hx h1 c hc
    have h1' : x ∈ S.started ∨ (S.state x).past := h1.imp_right (fun h2 => (hpast x h2).2)
    have h2 := h.deps x hx h1' c hc
    rw [hst, if_neg]
    · exact h2
    · intro hcU
      rcases hU3 c hcU with h3 | h3 | h3
      · exact h2.2 (hAE c h3)
      · rw [h3] at h2; exact h2.1
      · rw [h3] at h2; exact h2.1
  · intro x hx
    rw [hst] at hx; split at hx
    · rename_i hxU
      rcases hU4 x hxU with h3 | ⟨c, hc, hxc⟩
      · left; intro m hm; rw [hst, if_pos (hAU (hcl x h3 m hm))]
      · right; exact ⟨c, hi.seen c x hxc, by rw [hst, if_pos hc]⟩
    · rcases h.failed x hx with h3 | ⟨c, hc, h3⟩
      · left; intro m hm; rw [hst]; split
        · rfl
        · exact h3 m hm
      · right; refine ⟨c, hc, ?_⟩; rw [hst]; split
        · rfl
        · exact h3
  · intro hni f hff
    simp only [willNotBuild, Finset.mem_union] at hff
    rw [hst]; split
    · rfl
    · rename_i h3
      rcases hff with h4 | h4
      · exact h.ftask hni f h4
      · exact absurd (hAU (hF h4)) h3
  · intro x hx h1 m hm
    obtain ⟨h2, h3⟩ := hpast x h1
    have h4 := h.past x hx h3 m hm
    rw [hst, if_neg]; exact h4
    intro hmU
    rcases hU3 m hmU with h5 | h5 | h5
    · have : x ∈ A := hcl m h5 x (by rw [hC.peers x m hm]; exact hC.self x)
      exact h2 (hAU this)
    · rw [h5] at h4; exact h4
    · rw [h5] at h4; exact h4

theorem MInv.wnbNoMark {C : Cfg V} {ni : Prop} {S : St V} {E : V → Prop} {A : Finset V} (h : MInv C ni S E) :
    MInv C ni (willNotBuild S A false) E := by
  have hwp : ∀ c x, x ∈ (willNotBuild S A false).wp c → x ∈ S.wp c := by
    intro c x hx; simp only [willNotBuild, updOn_apply] at hx; split at hx
    · simp at hx
    · exact hx
  exact { waiting := fun c x hx => h.waiting c x (hwp c x hx), deps := h.deps, failed := h.failed, ftask := h.ftask,
          past := h.past }

theorem MInv.failTask {C : Cfg V} {ni : Prop} {orig : List V} {S S' : St V} {ts post : List V} {m : FailMode}
    (hC : C.WF) (hI : C.SEIso)
    (hi : InvE C orig S (· ∈ ts) (fun _ => False)) (h : MInv C ni S (· ∈ ts)) (hts : ∀ x ∈ ts, ¬ C.isSE x)
    (hcl : ∀ x ∈ ts, ∀ m ∈ C.targets x, m ∈ ts) (hft : ∀ f ∈ S.failedTasks, ¬ C.isSE f) (hni : ni → m ≠ .ignore)
    (hf : TM.failTask C S ts m post = some S') : MInv C ni S' (fun _ => False) := by
  have htf : ∀ x ∈ ts.toFinset, ¬ C.isSE x := fun x hx => hts x (List.mem_toFinset.1 hx)
  have hft' : ∀ f ∈ S.failedTasks ∪ ts.toFinset, ¬ C.isSE f := by
    intro f hf; rcases Finset.mem_union.1 hf with h1 | h1
    · exact hft f h1
    · exact htf f h1
  unfold TM.failTask at hf
  simp only at hf
  have h1i := hi.addFailed ts.toFinset
  have hbad : ∀ x ∈ ts.toFinset, Bad { S with failedTasks := S.failedTasks ∪ ts.toFinset } x :=
    fun x hx => Bad.of_failedTask (Finset.mem_union.2 (Or.inr hx))
  have hm : MInv C ni (willNotBuild { S with failedTasks := S.failedTasks ∪ ts.toFinset } ts.toFinset true) (· ∈ ts) := by
    refine MInv.wnbMark hC hi h htf (fun x hx => List.mem_toFinset.1 hx) ?_ ts.toFinset (Finset.Subset.refl _)
    intro x hx m hm; exact List.mem_toFinset.2 (hcl x (List.mem_toFinset.1 hx) m hm)
  have hmi := h1i.wnb ts.toFinset true htf (fun _ => hbad) (by simp)
  cases m with
  | ignore =>
    have hn : ¬ ni := fun h2 => hni h2 rfl
    have h1 : MInv C ni { S with failedTasks := S.failedTasks ∪ ts.toFinset } (· ∈ ts) :=
      { waiting := h.waiting, deps := h.deps, failed := h.failed, ftask := fun h2 => absurd h2 hn, past := h.past }
    exact MInv.postprocess (h1i.executed hts) (MInv.executed h1i h1 hI hts hft') hft' hI hf _ (fun _ h => h.elim)
  | keepGoing =>
    exact MInv.postprocess hmi hm hft' hI hf _ (fun _ h => h.elim)
  | stop =>
    simp only at hf
    have hfl : ∀ x ∈ ts, (willNotBuild { S with failedTasks := S.failedTasks ∪ ts.toFinset } ts.toFinset true).state x = .failed :=
      fun x hx => wnb_failed _ _ (List.mem_toFinset.2 hx)
    have hftw : ∀ f ∈ (willNotBuild { S with failedTasks := S.failedTasks ∪ ts.toFinset } ts.toFinset true).failedTasks,
      ¬ C.isSE f := hft'
    generalize willNotBuild { S with failedTasks := S.failedTasks ∪ ts.toFinset } ts.toFinset true = S2 at *
    have h3 : InvE C orig { S2 with stopped := true } (· ∈ ts) (fun _ => False) :=
      { hmi with
        execSE := fun s hs hs2 => Or.inr (Or.inl rfl)
        pending := fun h0 => by cases h0
        fresh := fun h0 => by cases h0
        top := fun h0 => by cases h0 }
    exact MInv.postprocess h3 (hm.congr rfl rfl rfl rfl rfl) hftw hI hf _ (fun _ h => h.elim)

/-- `make_ready` for a node all of whose reported dependencies are done. -/
theorem MInv.makeReady {C : Cfg V} {ni : Prop} {orig : List V} {S : St V} {n : V} (needs : Bool)
    (hC : C.WF) (hI : C.SEIso) (hi : InvE C orig S (· = n) (fun _ => False)) (h : MInv C ni S (fun _ => False))
    (hft : ∀ f ∈ S.failedTasks, ¬ C.isSE f)
    (hn : ¬ C.isSE n) (hpn : S.state n = .pending) (hk : ∀ c ∈ S.seen n, (S.state c).done) :
    MInv C ni (makeReady C S (C.targets n) needs) (· ∈ C.targets n) := by
  have hts : ∀ x ∈ C.targets n, ¬ C.isSE x := hI.tgt n hn
  have hnp : ∀ m ∈ C.targets n, ¬ (S.state m).past := by
    intro m hm h1
    have := h.past m (hts m hm) h1 n (by rw [hC.peers n m hm]; exact hC.self n)
    rw [hpn] at this; exact this
  have hnf : ∀ m ∈ C.targets n, S.state m ≠ .failed := by
    intro m hm h1
    rcases h.failed m h1 with h2 | ⟨c, hc, h2⟩
    · have := h2 n (by rw [hC.peers n m hm]; exact hC.self n)
      rw [hpn] at this; cases this
    · rw [hi.seenPeer n m hm] at hc
      have := hk c hc; rw [h2] at this; exact this
  have hnw : ∀ m ∈ C.targets n, ∀ c, m ∉ S.wp c := by
    intro m hm c hc
    have h1 := hi.seen c m hc
    rw [hi.seenPeer n m hm] at h1
    have h2 := hk c h1
    rcases hi.done c h2 with h3 | h3
    · rw [h3] at hc; simp at hc
    · rw [h3, hpn] at h2; exact h2
  have o : OnlyState S (TM.makeReady C S (C.targets n) needs) := by cases needs <;> constructor <;> rfl
  have hs : ∀ x, ¬ C.isSE x → (TM.makeReady C S (C.targets n) needs).state x
      = if x ∈ C.targets n then (if needs then .executing else .upToDate) else S.state x := by
    intro x hx
    cases needs
    · rfl
    · simp only [TM.makeReady, if_true, updOn_apply]
      by_cases h1 : x ∈ C.targets n
      · simp [h1]
      · simp [h1, show x ∉ C.ses (C.targets n) from fun h2 => hx (isSE_of_ses h2)]
  have hsse : ∀ x, C.isSE x → (TM.makeReady C S (C.targets n) needs).state x ≠ .failed := by
    intro x hx h1
    have h2 := (hi.makeReady needs (hC.self n) hts).seSt x hx
    rcases h2 with h2 | h2 <;> rw [h2] at h1 <;> cases h1
  have hkeep : ∀ x, ¬ C.isSE x → x ∉ C.targets n → (TM.makeReady C S (C.targets n) needs).state x = S.state x := by
    intro x hx h1; rw [hs x hx, if_neg h1]
  have hpastT : ∀ x ∈ C.targets n, ((TM.makeReady C S (C.targets n) needs).state x).past := by
    intro x hx; rw [hs x (hts x hx), if_pos hx]; cases needs <;> simp [NState.past]
  generalize TM.makeReady C S (C.targets n) needs = S' at *
  have hkd : ∀ c ∈ S.seen n, (S'.state c).done ∧ c ∉ C.targets n := by
    intro c hc
    have h1 := hk c hc
    have h2 : c ∉ C.targets n := fun h3 => hnp c h3 (NState.past_of_done h1)
    exact ⟨by rw [hkeep c (hi.seenSE n c hc) h2]; exact h1, h2⟩
  constructor
  · intro c x hx; rw [o.wp] at hx
    rw [hkeep x (hi.seWp' c x hx) (fun h1 => hnw x h1 c hx)]; exact h.waiting c x hx
  · intro x hx h1 c hc
    rw [o.started] at h1; rw [o.seen] at hc
    by_cases hxt : x ∈ C.targets n
    · rw [hi.seenPeer n x hxt] at hc; exact hkd c hc
    · rw [hkeep x hx hxt] at h1
      have h2 := (h.deps x hx h1 c hc).1
      have h3 : c ∉ C.targets n := fun h4 => hnp c h4 (NState.past_of_done h2)
      exact ⟨by rw [hkeep c (hi.seenSE x c hc) h3]; exact h2, h3⟩
  · intro x hx
    have hxse : ¬ C.isSE x := fun h1 => hsse x h1 hx
    have hxt : x ∉ C.targets n := by
      intro h1
      have := hpastT x h1; rw [hx] at this; exact this
    rw [hkeep x hxse hxt] at hx
    rcases h.failed x hx with h2 | ⟨c, hc, h2⟩
    · left; intro m hm
      have hmt : m ∉ C.targets n := by
        intro h3; apply hxt; rw [← hC.peers n m h3, hC.peers x m hm]; exact hC.self x
      rw [hkeep m (hI.tgt x hxse m hm) hmt]; exact h2 m hm
    · right; refine ⟨c, by rw [o.seen]; exact hc, ?_⟩
      rw [hkeep c (hi.seenSE x c hc) (fun h3 => hnf c h3 h2)]; exact h2
  · intro hni f hf; rw [o.failedTasks] at hf
    have h1 := h.ftask hni f hf
    rw [hkeep f (hft f hf) (fun h3 => hnf f h3 h1)]; exact h1
  · intro x hx h1 m hm
    by_cases hxt : x ∈ C.targets n
    · rw [hC.peers n x hxt] at hm; exact hpastT m hm
    · rw [hkeep x hx hxt] at h1
      have hmt : m ∉ C.targets n := by
        intro h3; apply hxt; rw [← hC.peers n m h3, hC.peers x m hm]; exact hC.self x
      rw [hkeep m (hI.tgt x hx m hm) hmt]; exact h.past x hx h1 m hm

theorem MInv.handOut {C : Cfg V} {ni : Prop} {orig : List V} {S S' : St V} {n : V} {fate : Fate} {post : List V} (hC : C.WF)
    (hI : C.SEIso) (hi : InvE C orig S (· = n) (fun _ => False)) (h : MInv C ni S (fun _ => False)) (hn : ¬ C.isSE n)
    (hft : ∀ f ∈ S.failedTasks, ¬ C.isSE f)
    (hpn : S.state n = .pending)
    (hk : (∃ m, fate = .exc m) ∨ ∀ c ∈ S.seen n, (S.state c).done)
    (hni : ni → fate ≠ .exc .ignore ∧ (∀ b, fate ≠ .excReady b .ignore) ∧ fate ≠ .internal (some .ignore))
    (hh : TM.handOut C S n fate post = some S') : MInv C ni S' (fun _ => False) := by
  have hts : ∀ x ∈ C.targets n, ¬ C.isSE x := hI.tgt n hn
  have hcl : ∀ x ∈ C.targets n, ∀ m ∈ C.targets x, m ∈ C.targets n := by
    intro x hx m hm; rw [hC.peers n x hx] at hm; exact hm
  have hnt := hC.self n
  have hft2 : ∀ b, ∀ f ∈ (TM.makeReady C S (C.targets n) b).failedTasks, ¬ C.isSE f := by
    intro b; cases b <;> exact hft
  have hiE : InvE C orig S (· ∈ C.targets n) (fun _ => False) := hi.mono (fun x hx => by rw [hx]; exact hnt)
  have hnp : ∀ m ∈ C.targets n, ¬ (S.state m).past := by
    intro m hm h1
    have := h.past m (hts m hm) h1 n (by rw [hC.peers n m hm]; exact hC.self n)
    rw [hpn] at this; exact this
  have hE : MInv C ni S (· ∈ C.targets n) :=
    { h with
      deps := by
        intro x hx h1 c hc
        have h2 := (h.deps x hx h1 c hc).1
        exact ⟨h2, fun h3 => hnp c h3 (NState.past_of_done h2)⟩ }
  cases fate with
  | exc m => exact MInv.failTask hC hI hiE hE hts hcl hft (fun h1 h2 => (hni h1).1 (by rw [h2])) hh
  | excReady needs m =>
    have hk' : ∀ c ∈ S.seen n, (S.state c).done := by
      rcases hk with ⟨_, h1⟩ | h1
      · cases h1
      · exact h1
    exact MInv.failTask hC hI (hi.makeReady needs hnt hts) (MInv.makeReady needs hC hI hi h hft hn hpn hk') hts hcl (hft2 _)
      (fun h1 h2 => (hni h1).2.1 needs (by rw [h2])) hh
  | internal res =>
    have hk' : ∀ c ∈ S.seen n, (S.state c).done := by
      rcases hk with ⟨_, h1⟩ | h1
      · cases h1
      · exact h1
    have h1i := hi.makeReady false hnt hts
    have h1 := MInv.makeReady false hC hI hi h hft hn hpn hk'
    cases res with
    | some m =>
      exact MInv.failTask hC hI h1i h1 hts hcl (hft2 _) (fun h1 h2 => (hni h1).2.2 (by rw [h2])) hh
    | none =>
      exact MInv.postprocess (h1i.executed hts) (MInv.executed h1i h1 hI hts (hft2 _)) (hft2 false) hI hh _ (fun _ h => h.elim)
  | start =>
    have hk' : ∀ c ∈ S.seen n, (S.state c).done := by
      rcases hk with ⟨_, h1⟩ | h1
      · cases h1
      · exact h1
    have h1 := MInv.makeReady true hC hI hi h hft hn hpn hk'
    have hs : ∀ x ∈ C.targets n, (TM.makeReady C S (C.targets n) true).state x = .executing := by
      intro x hx; simp [TM.makeReady, updOn_apply, hx]
    simp only [TM.handOut, Option.some.injEq] at hh
    generalize TM.makeReady C S (C.targets n) true = S1 at *
    rw [← hh]
    exact
      { h1 with
        deps := by
          intro x hx h2 c hc
          refine ⟨?_, id⟩
          rcases h2 with h2 | h2
          · rcases List.mem_append.1 h2 with h2 | h2
            · exact (h1.deps x hx (Or.inr (by rw [hs x h2]; simp [NState.past])) c hc).1
            · exact (h1.deps x hx (Or.inl h2) c hc).1
          · exact (h1.deps x hx (Or.inr h2) c hc).1 }

/-! ### the consideration of a candidate -/

theorem nextCandidate_fields {S S' : St V} {n : V} {alt : List V} (hn : TM.nextCandidate S alt = some (S', n)) :
    S'.state = S.state ∧ S'.wp = S.wp ∧ S'.started = S.started ∧ S'.seen = S.seen ∧ S'.failedTasks = S.failedTasks
    ∧ S'.ref = S.ref ∧ S'.wse = S.wse ∧ S'.pend = S.pend ∧ S'.stopped = S.stopped ∧ S'.active = S.active
    ∧ S'.born = S.born ∧ S'.clock = S.clock := by
  unfold TM.nextCandidate at hn
  split at hn
  · simp only [Option.some.injEq, Prod.mk.injEq] at hn; rw [← hn.1]; simp
  · split at hn
    · cases hn
    · simp only at hn; split at hn
      · simp only [Option.some.injEq, Prod.mk.injEq] at hn; rw [← hn.1]; simp
      · cases hn

theorem MInv.considerNode {C : Cfg V} {ni : Prop} {orig : List V} {S S' : St V} {n : V} {scan : Scan V} {pushed : List V} {o : Outcome}
    (hC : C.WF) (hI : C.SEIso) (hi : InvE C orig S (fun _ => False) (· = n)) (h : MInv C ni S (fun _ => False))
    (hn : ¬ C.isSE n) (hft : ∀ f ∈ S.failedTasks, ¬ C.isSE f)
    (hgrow : ∀ kids, scan = .ok kids → ∀ c ∈ S.seen n, c ∈ C.prereqs n ++ kids)
    (hc : TM.considerNode C S n scan pushed = some (S', o)) :
    MInv C ni S' (fun _ => False) ∧ S'.failedTasks = S.failedTasks ∧
    (o = .ready → ∀ c ∈ S'.seen n, (S'.state c).done) := by
  unfold TM.considerNode at hc
  split at hc
  · simp only [Option.some.injEq, Prod.mk.injEq] at hc
    obtain ⟨rfl, rfl⟩ := hc
    exact ⟨h, rfl, by simp⟩
  rename_i hr
  have hr' := NState.rank_le_one.1 hr
  -- no co-target is executing/done/started
  have hnp : ∀ m ∈ C.targets n, ¬ (S.state m).past := by
    intro m hm h1
    have := h.past m (hI.tgt n hn m hm) h1 n (by rw [hC.peers n m hm]; exact hC.self n)
    rcases hr' with h2 | h2 <;> rw [h2] at this <;> exact this
  have hns : ∀ m ∈ C.targets n, m ∉ S.started := by
    intro m hm h1
    have := hi.started n (hi.startedRest.peer m h1 n (by rw [hC.peers n m hm]; exact hC.self n))
    exact hr this
  have hst : ∀ x, (markPending S n).state x = if x = n then .pending else S.state x := fun x => rfl
  have hp : MInv C ni (markPending S n) (fun _ => False) := by
    constructor
    · intro c x hx; rw [hst]; split
      · exact Or.inl rfl
      · exact h.waiting c x hx
    · intro x hx h1 c hc
      have h1' : x ∈ S.started ∨ (S.state x).past := by
        rcases h1 with h1 | h1
        · exact Or.inl h1
        · rw [hst] at h1; split at h1
          · exact h1.elim
          · exact Or.inr h1
      have h2 := h.deps x hx h1' c hc
      rw [hst, if_neg]; exact h2
      rintro rfl
      exact hnp c (hC.self c) (NState.past_of_done h2.1)
    · intro x hx
      rw [hst] at hx; split at hx
      · cases hx
      · rcases h.failed x hx with h2 | ⟨c, hc, h2⟩
        · left; intro m hm; rw [hst, if_neg]; exact h2 m hm
          rintro rfl; have := h2 m hm
          rcases hr' with h3 | h3 <;> rw [h3] at this <;> cases this
        · right; refine ⟨c, hc, ?_⟩; rw [hst, if_neg]; exact h2
          rintro rfl
          rcases hr' with h3 | h3 <;> rw [h3] at h2 <;> cases h2
    · intro hni f hf
      have h2 := h.ftask hni f hf
      rw [hst, if_neg]; exact h2
      rintro rfl
      rcases hr' with h3 | h3 <;> rw [h3] at h2 <;> cases h2
    · intro x hx h1 m hm
      rw [hst] at h1; split at h1
      · exact h1.elim
      · have h2 := h.past x hx h1 m hm
        rw [hst, if_neg]; exact h2
        rintro rfl
        exact hnp m (hC.self m) h2
  have hpi := hi.setPending hn hr
  have hpn : (markPending S n).state n = .pending := by simp [markPending]
  have hseen0 : (markPending S n).seen = S.seen := rfl
  have hstd0 : (markPending S n).started = S.started := rfl
  have hf0 : (markPending S n).failedTasks = S.failedTasks := rfl
  generalize markPending S n = Sp at *
  have hnpP : ∀ m ∈ C.targets n, ¬ (Sp.state m).past := by
    intro m hm h1; rw [hst] at h1; split at h1
    · exact h1
    · exact hnp m hm h1
  cases scan with
  | raised =>
    simp only [Option.some.injEq, Prod.mk.injEq] at hc
    obtain ⟨rfl, rfl⟩ := hc
    exact ⟨hp, hf0, by simp⟩
  | ok kids =>
    simp only at hc
    have hgr := hgrow kids rfl
    generalize hallE : C.prereqs n ++ kids = all at *
    split at hc
    case isFalse => cases hc
    case isTrue hpush =>
    simp only [Option.some.injEq] at hc
    -- after pushKids
    have hsn : ∀ x, (pushKids C Sp n all pushed).seen x = if x ∈ C.targets n then Sp.seen n ∪ all.toFinset else Sp.seen x := fun x => rfl
    have hq : MInv C ni (pushKids C Sp n all pushed) (fun _ => False) := by
      refine ⟨hp.waiting, ?_, ?_, hp.ftask, hp.past⟩
      · intro x hx h1 c hc
        rw [hsn] at hc
        have hxt : x ∉ C.targets n := by
          intro h2
          rcases h1 with h1 | h1
          · exact hns x h2 (hstd0 ▸ h1)
          · exact hnpP x h2 h1
        rw [if_neg hxt] at hc
        exact hp.deps x hx h1 c hc
      · intro x hx
        rcases hp.failed x hx with h2 | ⟨c, hc, h2⟩
        · exact Or.inl h2
        · right; exact ⟨c, pushKids_seen_sub hpi.seenPeer x hc, h2⟩
    have hseenall : ∀ c, c ∈ (pushKids C Sp n all pushed).seen n ↔ c ∈ all := by
      intro c; rw [hsn, if_pos (hC.self n), Finset.mem_union, List.mem_toFinset, hseen0]
      constructor
      · rintro (h1 | h1)
        · exact hgr c h1
        · exact h1
      · exact Or.inr
    have hseenall' : ∀ m ∈ C.targets n, ∀ c ∈ all, c ∈ (pushKids C Sp n all pushed).seen m := by
      intro m hm c hc; rw [hsn, if_pos hm]; simp [hc]
    have hqs : (pushKids C Sp n all pushed).state = Sp.state := rfl
    have hqf : (pushKids C Sp n all pushed).failedTasks = Sp.failedTasks := rfl
    have hqst : (pushKids C Sp n all pushed).started = Sp.started := rfl
    generalize pushKids C Sp n all pushed = S1 at *
    unfold TM.judge at hc
    split at hc
    · rename_i hany
      simp only [Prod.mk.injEq] at hc
      obtain ⟨rfl, rfl⟩ := hc
      simp only [List.any_eq_true, decide_eq_true_eq] at hany
      obtain ⟨c0, hc0, hc0f⟩ := hany
      refine ⟨?_, hqf.trans hf0, by simp⟩
      have hst2 : ∀ x, updOn S1.state (· ∈ C.actTargets n) .failed x = if x ∈ C.actTargets n then .failed else S1.state x := fun x => rfl
      constructor
      · intro c x hx; simp only [hst2]; split
        · exact Or.inr rfl
        · exact hq.waiting c x hx
      · intro x hx h1 c hc
        simp only [hst2] at h1
        have h1' : x ∈ S1.started ∨ (S1.state x).past := by
          rcases h1 with h1 | h1
          · exact Or.inl h1
          · split at h1
            · exact h1.elim
            · exact Or.inr h1
        have h2 := hq.deps x hx h1' c hc
        simp only [hst2]
        rw [if_neg]; exact h2
        intro h3
        exact hnpP c (hC.act n c h3) (by rw [← hqs]; exact NState.past_of_done h2.1)
      · intro x hx
        simp only [hst2] at hx ⊢
        split at hx
        · right
          refine ⟨c0, hseenall' x (hC.act n x ‹_›) c0 hc0, ?_⟩
          split
          · rfl
          · exact hc0f
        · rcases hq.failed x hx with h2 | ⟨c, hc, h2⟩
          · left; intro m hm; split
            · rfl
            · exact h2 m hm
          · right; refine ⟨c, hc, ?_⟩; split
            · rfl
            · exact h2
      · intro hni f hf; simp only [hst2]; split
        · rfl
        · exact hq.ftask hni f hf
      · intro x hx h1 m hm
        simp only [hst2] at h1 ⊢
        split at h1
        · exact h1.elim
        · have h2 := hq.past x hx h1 m hm
          rw [if_neg]; exact h2
          intro h3
          exact hnpP m (hC.act n m h3) (by rw [← hqs]; exact h2)
    · rename_i hany
      simp only at hc
      split at hc
      · simp only [Prod.mk.injEq] at hc
        obtain ⟨rfl, rfl⟩ := hc
        generalize hNR : all.filter (fun c => (S1.state c).rank ≤ 2) = NR at *
        obtain ⟨f1, f2, f3, f4, f5, f6, f7, f8, f9, f10, f11, f12, f13⟩ := addWaiting_fields n NR S1
        have fwp := addWaiting_wp n NR S1
        generalize addWaiting n NR S1 = S2 at *
        refine ⟨?_, (f10.trans hqf).trans hf0, by simp⟩
        constructor
        · intro c x hx; simp only [f1]; simp only [fwp] at hx
          split at hx
          · rcases Finset.mem_insert.1 hx with h1 | h1
            · left; rw [h1, hqs, hpn]
            · exact hq.waiting c x h1
          · exact hq.waiting c x hx
        · simp only [f1, f9, f11]; exact hq.deps
        · simp only [f1, f11]; exact hq.failed
        · simp only [f1, f10]; exact hq.ftask
        · simp only [f1]; exact hq.past
      · rename_i hnr
        have hkd : ∀ c ∈ S1.seen n, (S1.state c).done := by
          intro c hc
          have hca := (hseenall c).1 hc
          apply NState.done_of
          · intro h1
            apply hnr
            intro h2
            have : c ∈ all.filter (fun c => decide ((S1.state c).rank ≤ 2)) := by
              simp [hca, h1]
            rw [h2] at this; simp at this
          · intro h1
            apply hany
            simp only [List.any_eq_true, decide_eq_true_eq]
            exact ⟨c, hca, h1⟩
        split at hc
        · simp only [Prod.mk.injEq] at hc
          obtain ⟨rfl, rfl⟩ := hc
          exact ⟨hq.congr rfl rfl rfl rfl rfl, hqf.trans hf0, by simp⟩
        · simp only [Prod.mk.injEq] at hc
          obtain ⟨rfl, rfl⟩ := hc
          exact ⟨hq, hqf.trans hf0, fun _ => hkd⟩

end Verif.TM
