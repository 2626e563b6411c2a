import Verif.TM.Props2

/-!
# The whole walk ends

C09 says that the search for one task ends.  Here: the whole build does — no infinite sequence of loop iterations, hand-outs, retirements
and stops exists, on any graph (cyclic or not), whatever the scans answer, in any order of retirements.
-/

set_option linter.unusedSectionVars false

namespace Verif.TM
variable {V : Type} [DecidableEq V] [Fintype V]

/-- Steps that the program takes only finitely often without the help of others: `no_next_candidate` empties the candidate list only when it
is not empty (`:715-727`, `while self.candidates`), the signal handler matters once
(`Job.py:145-148`), and no exception of a *scan* or of `prepare()` before the node's state is set is ignored by `-i`. -/
def Lab.progress (S : St V) : Lab V → Prop
  | .consider _ _ _ (.exc .ignore) _ => False
  | .flush => S.cands ≠ []
  | .interrupt => S.stopped = false
  | _ => True

/-- nodes not yet handed out or given up -/
noncomputable def openNodes (C : Cfg V) (S : St V) : Finset V := by
  classical exact Finset.univ.filter (fun x => ¬ C.isSE x ∧ (S.state x).rank ≤ 1)

theorem mem_openNodes {C : Cfg V} {S : St V} {x : V} : x ∈ openNodes C S ↔ ¬ C.isSE x ∧ (S.state x).rank ≤ 1 := by
  classical simp [openNodes]

/-- the measure -/
noncomputable def walkMeasure (C : Cfg V) (S : St V) : Nat ×ₗ (Nat ×ₗ ((Nat ×ₗ (Nat ×ₗ Nat)) ×ₗ Nat)) :=
  toLex (if S.stopped then 0 else 1, toLex (2 * (openNodes C S).card + S.active.length, toLex (searchMeasure S, S.cands.length)))

theorem walk_lt {C : Cfg V} {S T : St V} (h1 : S.stopped = true → T.stopped = true)
    (h2 : 2 * (openNodes C T).card + T.active.length < 2 * (openNodes C S).card + S.active.length) : walkMeasure C T < walkMeasure C S := by
  unfold walkMeasure
  rw [Prod.Lex.lt_iff]
  simp only [ofLex_toLex]
  by_cases a : S.stopped = true
  · rw [a, h1 a]; right; refine ⟨rfl, ?_⟩
    rw [Prod.Lex.lt_iff]; exact Or.inl h2
  · by_cases b : T.stopped = true
    · left; rw [if_pos b, if_neg a]; omega
    · right; rw [if_neg a, if_neg b]; refine ⟨rfl, ?_⟩
      rw [Prod.Lex.lt_iff]; exact Or.inl h2

theorem open_sub {C : Cfg V} {S T : St V} {l : Lab V} (h : step C S l = some T) : openNodes C T ⊆ openNodes C S := by
  intro x hx
  rw [mem_openNodes] at hx ⊢
  refine ⟨hx.1, ?_⟩
  by_contra hr
  exact absurd (step_past h hx.1 (by omega)) (by omega)

theorem searchStep_lt {C : Cfg V} {S T : St V} (h : SearchStep C S T) : searchMeasure T < searchMeasure S := by
  obtain ⟨alt, scan, pushed, S1, n, hnc, hcn⟩ := h
  obtain ⟨c1, c2, c3, new, c4, c5⟩ := considerNode_noState hcn
  obtain ⟨g1, -⟩ := nextCandidate_fields hnc
  unfold nextCandidate at hnc
  split at hnc
  · rename_i k rest hcands
    simp only [Option.some.injEq, Prod.mk.injEq] at hnc
    obtain ⟨e1, e2⟩ := hnc
    have htops : S1.tops = S.tops := by rw [← e1]
    refine searchMeasure_lt (by rw [c1, htops]) (fun _ x hx => by rw [← g1]; exact c2 x hx) ?_
    intro _ hiff
    have hcd : S1.cands = rest := by rw [← e1]
    have hnn : S.state n ≠ .noState := fun h => c3 ((hiff n).2 h)
    rw [c4, hcd, hcands, e2]
    have hfe : ∀ x : V, (decide (T.state x ≠ .noState)) = decide (S.state x ≠ .noState) := by
      intro x; simp only [decide_eq_decide]; rw [ne_eq, ne_eq, hiff]
    simp only [hfe]
    rw [List.filter_append]
    have : new.filter (fun x => decide (S.state x ≠ .noState)) = [] := by
      rw [List.filter_eq_nil_iff]; intro x hx
      have := (c5 x hx).1; rw [g1] at this; simp [this]
    rw [this, List.nil_append, List.filter_cons_of_pos (by simpa using hnn)]
    simp
  · split at hnc
    · cases hnc
    · rename_i t ts htops
      simp only at hnc
      split at hnc
      · simp only [Option.some.injEq, Prod.mk.injEq] at hnc
        have h1 : S1.tops = ts := by rw [← hnc.1]
        refine searchMeasure_lt ?_ ?_ ?_
        · rw [c1, h1, htops]; simp
        · intro h; rw [c1, h1, htops] at h; simp at h
        · intro h; rw [c1, h1, htops] at h; simp at h
      · cases hnc

theorem NState.rank_mono_failed : 1 < NState.failed.rank := by decide

theorem postprocess_rank {C : Cfg V} {S S' : St V} {ts post : List V} (h : postprocess C S ts post = some S') {x : V} (hx : ¬ C.isSE x) :
    S'.state x = S.state x := by
  unfold postprocess at h
  simp only at h
  split at h
  case isFalse => cases h
  injection h with h
  rw [← h]
  simp only [updOn_apply]
  rw [if_neg]
  rintro ⟨h1, -⟩
  exact hx (isSE_of_ses (by simpa using h1))

theorem executed_rank {C : Cfg V} {S : St V} {ts : List V} {x : V} (hx : ¬ C.isSE x) (h : 1 < (S.state x).rank) :
    1 < ((executed C S ts).state x).rank := by
  rw [executed_state_nse hx]; split
  · decide
  · exact h

theorem failTask_rank {C : Cfg V} {S S' : St V} {ts post : List V} {m : FailMode} (h : failTask C S ts m post = some S') {x : V}
    (hx : ¬ C.isSE x) (hm : m = .ignore → 1 < (S.state x).rank) (hxt : x ∈ ts) : 1 < (S'.state x).rank := by
  unfold failTask at h
  cases m with
  | ignore =>
    rw [postprocess_rank h hx]; exact executed_rank hx (hm rfl)
  | keepGoing =>
    rw [postprocess_rank h hx, wnb_failed _ _ (by simpa using hxt)]; decide
  | stop =>
    rw [postprocess_rank h hx]
    show 1 < ((willNotBuild _ _ true).state x).rank
    rw [wnb_failed _ _ (by simpa using hxt)]; decide

theorem handOut_rank {C : Cfg V} {S S' : St V} {n : V} {fate : Fate} {post : List V} (h : handOut C S n fate post = some S')
    (hx : ¬ C.isSE n) (hn : n ∈ C.targets n) (hf : fate ≠ .exc .ignore) : 1 < (S'.state n).rank := by
  have mk : ∀ b, 1 < ((makeReady C S (C.targets n) b).state n).rank := by
    intro b; cases b
    · simp [makeReady, updOn_apply, hn, NState.rank]
    · simp [makeReady, updOn_apply, hn, NState.rank]
  unfold handOut at h
  cases fate with
  | exc m => exact failTask_rank h hx (fun e => absurd (by rw [e]) hf) hn
  | excReady b m => exact failTask_rank h hx (fun _ => mk b) hn
  | internal res =>
    cases res with
    | none => rw [postprocess_rank h hx]; exact executed_rank hx (mk false)
    | some m => exact failTask_rank h hx (fun _ => mk false) hn
  | start =>
    simp only [Option.some.injEq] at h
    rw [← h]; exact mk true

theorem considerNode_le_one {C : Cfg V} {S S' : St V} {n : V} {scan : Scan V} {pushed : List V} {o : Outcome}
    (h : considerNode C S n scan pushed = some (S', o)) (ho : o ≠ .skip) : (S.state n).rank ≤ 1 := by
  unfold considerNode at h
  split at h
  · simp only [Option.some.injEq, Prod.mk.injEq] at h; exact absurd h.2.symm ho
  · omega

theorem considerNode_active {C : Cfg V} {S S' : St V} {n : V} {scan : Scan V} {pushed : List V} {o : Outcome}
    (h : considerNode C S n scan pushed = some (S', o)) : S'.active = S.active ∧ S'.stopped = S.stopped := by
  unfold considerNode at h
  split at h
  · simp only [Option.some.injEq, Prod.mk.injEq] at h; rw [← h.1]; exact ⟨rfl, rfl⟩
  · split at h
    · simp only [Option.some.injEq, Prod.mk.injEq] at h; rw [← h.1]; exact ⟨rfl, rfl⟩
    · simp only at h
      split at h
      · simp only [Option.some.injEq] at h
        have h3 := congrArg Prod.fst h
        simp only at h3
        rw [← h3]
        unfold judge
        split
        · exact ⟨rfl, rfl⟩
        · simp only; split
          · obtain ⟨f1, f2, f3, f4, f5, f6, f7, f8, -⟩ := addWaiting_fields n
              ((C.prereqs n ++ _).filter (fun c => decide (((pushKids C (markPending S n) n (C.prereqs n ++ _) pushed).state c).rank ≤ 2)))
              (pushKids C (markPending S n) n (C.prereqs n ++ _) pushed)
            exact ⟨f8, f7⟩
          · split <;> exact ⟨rfl, rfl⟩
      · cases h

/-- Every step makes the measure smaller. -/
theorem walk_step' {C : Cfg V} (hC : C.WF) {S T : St V} {l : Lab V}
    (hi : ∀ alt scan pushed fate post S1 n, l = .consider alt scan pushed fate post → nextCandidate S alt = some (S1, n) → ¬ C.isSE n)
    (hp : l.progress S) (h : step C S l = some T) : walkMeasure C T < walkMeasure C S := by
  have hsub := open_sub h
  cases l with
  | consider alt scan pushed fate post =>
    simp only [step] at h
    split at h
    · cases h
    rename_i hst
    split at h
    · cases h
    rename_i S1 n hnc
    obtain ⟨g1, -, -, -, -, -, -, -, g9, g10, -⟩ := nextCandidate_fields hnc
    have hnse := hi _ _ _ _ _ _ _ rfl hnc
    have give : ∀ {S2 S3 : St V} {o : Outcome} {fate' : Fate}, considerNode C S1 n scan pushed = some (S2, o) → o ≠ .skip →
        fate' ≠ .exc .ignore → handOut C S2 n fate' post = some S3 → openNodes C S3 ⊆ openNodes C S → 
        2 * (openNodes C S3).card + S3.active.length < 2 * (openNodes C S).card + S.active.length := by
      intro S2 S3 o fate' hcn ho hf hh hsub
      have h1 := considerNode_le_one hcn ho
      rw [g1] at h1
      have h2 := handOut_rank hh hnse (hC.self n) hf
      have h3 : (openNodes C S3).card < (openNodes C S).card := by
        refine Finset.card_lt_card (Finset.ssubset_iff_of_subset hsub |>.2 ⟨n, mem_openNodes.2 ⟨hnse, h1⟩, ?_⟩)
        rw [mem_openNodes]; rintro ⟨-, h4⟩; omega
      have h4 : S3.active.length ≤ S.active.length + 1 := by
        have h5 := (considerNode_active hcn).1
        rcases handOut_active hh with ⟨-, h6, -⟩ | ⟨-, h6, -⟩
        · rw [h6, h5, g10]; simp
        · rw [h6, h5, g10]; omega
      omega
    split at h
    · cases h
    · rename_i S2 hcn
      simp only [Option.some.injEq] at h
      obtain ⟨a1, a2⟩ := considerNode_active hcn
      have hle : (openNodes C T).card ≤ (openNodes C S).card := Finset.card_le_card hsub
      have hlt : searchMeasure T < searchMeasure S := by
        rw [← h]; exact (searchStep_lt (T := S2) ⟨alt, scan, pushed, S1, n, hnc, hcn⟩ : searchMeasure S2 < searchMeasure S)
      have e1 : T.active = S.active := by rw [← h]; exact a1.trans g10
      have e2 : T.stopped = S.stopped := by rw [← h]; exact a2.trans g9
      unfold walkMeasure
      rw [Prod.Lex.lt_iff]; simp only [ofLex_toLex]
      right; refine ⟨by rw [e2], ?_⟩
      rw [Prod.Lex.lt_iff]; simp only [ofLex_toLex]
      rcases Nat.lt_or_eq_of_le hle with h5 | h5
      · left; rw [e1]; omega
      · right; refine ⟨by rw [e1, h5], ?_⟩
        rw [Prod.Lex.lt_iff]; exact Or.inl hlt
    · rename_i S2 hcn
      split at h
      · rename_i m
        rw [Option.map_eq_some_iff] at h
        obtain ⟨S3, h1, h2⟩ := h
        have := give hcn (by simp) (by rintro ⟨⟩; exact hp) h1 (by rw [← h2] at hsub; exact hsub)
        rw [← h2]
        exact walk_lt (fun a => absurd a hst) this
      · cases h
    · rename_i S2 hcn
      rw [Option.map_eq_some_iff] at h
      obtain ⟨S3, h1, h2⟩ := h
      have := give hcn (by simp) (by rintro rfl; exact hp) h1 (by rw [← h2] at hsub; exact hsub)
      rw [← h2]
      exact walk_lt (fun a => absurd a hst) this
  | finish n res post =>
    have hle : (openNodes C T).card ≤ (openNodes C S).card := Finset.card_le_card hsub
    have hstop : S.stopped = true → T.stopped = true := fun a => (stopped_step a h).1
    simp only [step] at h
    split at h
    case isFalse => cases h
    rename_i hn
    have hact : T.active = S.active.erase n := by
      split at h
      · rw [(postprocess_failedTasks h).2.2.1]; rfl
      · rw [(failTask_fields h).2.2.1]
    have h1 := List.length_erase_of_mem hn
    have h2 := List.length_pos_of_mem hn
    refine walk_lt hstop ?_
    rw [hact]; omega
  | flush =>
    simp only [step] at h
    split at h
    case isFalse => cases h
    rename_i hst
    simp only [Option.some.injEq] at h
    have e1 : T.active = S.active := by rw [← h]; rfl
    have e2 : T.stopped = S.stopped := by rw [← h]; rfl
    have e3 : T.state = S.state := by rw [← h]; simp [willNotBuild]
    have e4 : T.cands = [] := by rw [← h]; rfl
    have e5 : T.tops = S.tops := by rw [← h]; rfl
    have e6 : openNodes C T = openNodes C S := by ext x; rw [mem_openNodes, mem_openNodes, e3]
    have hc : S.cands ≠ [] := hp
    unfold walkMeasure
    rw [e1, e2, e6, Prod.Lex.lt_iff]; simp only [ofLex_toLex]
    right; refine ⟨trivial, ?_⟩
    rw [Prod.Lex.lt_iff]; simp only [ofLex_toLex]
    right; refine ⟨trivial, ?_⟩
    rw [Prod.Lex.lt_iff]; simp only [ofLex_toLex]
    by_cases h0 : (S.cands.filter (fun x => S.state x ≠ .noState)) = []
    · right
      refine ⟨?_, by rw [e4]; exact List.length_pos_iff.2 hc⟩
      unfold searchMeasure
      rw [e3, e4, e5, h0]; rfl
    · left
      refine searchMeasure_lt (by rw [e5]) (fun _ x hx => by rw [← e3]; exact hx) (fun _ _ => ?_)
      rw [e4]; simpa using List.length_pos_iff.2 h0
  | interrupt =>
    simp only [step, Option.some.injEq] at h
    have hst : S.stopped = false := hp
    unfold walkMeasure
    rw [Prod.Lex.lt_iff]
    left
    rw [← h]; simp [hst]

theorem walk_step {C : Cfg V} {orig : List V} (hC : C.WF) {S T : St V} {l : Lab V} (hi : Inv C orig S) (hl : l.noSE C)
    (hp : l.progress S) (h : step C S l = some T) : walkMeasure C T < walkMeasure C S :=
  walk_step' hC (by rintro alt scan pushed fate post S1 n rfl hnc; exact (InvE.nextCandidate hi hl.1 hnc).2) hp h

/-- **C09, the whole walk.** A build of any project — cyclic or not, whatever the scans answer, whatever fails, in whatever order the
outstanding tasks are retired — cannot go on for ever. -/
theorem C09_build_terminates {C : Cfg V} {orig : List V} (hp : Project C orig) (f : Nat → St V) (h0 : f 0 = St.init orig)
    (hs : ∀ i, ∃ l : Lab V, l.noSE C ∧ l.progress (f i) ∧ step C (f i) l = some (f (i + 1))) : False := by
  have hinv : ∀ i, Inv C orig (f i) := by
    intro i
    induction i with
    | zero => rw [h0]; exact Inv.init hp.top
    | succ i ih => obtain ⟨l, h1, -, h3⟩ := hs i; exact Inv.step hp.wf hp.iso ih h1 h3
  have hdec : ∀ i, walkMeasure C (f (i + 1)) < walkMeasure C (f i) := by
    intro i; obtain ⟨l, h1, h2, h3⟩ := hs i; exact walk_step hp.wf (hinv i) h1 h2 h3
  obtain ⟨w, ⟨i, rfl⟩, hw⟩ := (wellFounded_lt (α := Nat ×ₗ (Nat ×ₗ ((Nat ×ₗ (Nat ×ₗ Nat)) ×ₗ Nat)))).has_min
    (Set.range fun i => walkMeasure C (f i)) ⟨_, 0, rfl⟩
  exact hw _ ⟨i + 1, rfl⟩ (hdec i)

end Verif.TM
