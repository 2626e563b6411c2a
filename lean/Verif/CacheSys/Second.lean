import Verif.CacheSys.Props

/-! # Builds that share a cache directory: what the second tree does not build (C110) -/

namespace Verif.CacheSys

set_option linter.unusedSectionVars false

variable {C A S K : Type} [DecidableEq S] [DecidableEq K]

/-- A target that is there (and not excluded by `NoCache`) is in the cache. -/
def CachedAt (X : Tools C A S K) (P : Project C A) (files : Node → Option C) (cache : K → Option C) (g : Nat) (t : Node) : Prop :=
  P.nocache t = false → (files t).isSome → (cache (keyOf X (recOf X P files g) t)).isSome

/-- What holds of a task at work. -/
def PushPhase (X : Tools C A S K) (P : Project C A) (files : Node → Option C) (cache : K → Option C) (g : Nat) : Phase → Prop
  | .fetch _ got => ∀ t ∈ got, (cache (keyOf X (recOf X P files g) t)).isSome
  | .build => True
  | .push rest => ∀ t ∈ P.targets g, t ∈ rest ∨ CachedAt X P files cache g t

/-- What holds of a build that pushes all it does to the cache. -/
structure PushInv (X : Tools C A S K) (files : Node → Option C) (cache : K → Option C) (σ : Session C A S) : Prop where
  done : ∀ g ∈ σ.done, ∀ t ∈ σ.P.targets g, CachedAt X σ.P files cache g t
  jobs : ∀ g j, σ.jobs g = some j → PushPhase X σ.P files cache g j.ph
  bare : σ.fl.force = true ∨ ∀ g, g ∉ σ.done → σ.jobs g = none → ∀ t ∈ σ.P.targets g, σ.mem t = none ∨ files t = none

theorem CachedAt.mono {X : Tools C A S K} {P : Project C A} {files : Node → Option C} {cache cache' : K → Option C} {g : Nat} {t : Node} (h : CachedAt X P files cache g t)
    (hc : ∀ k x, cache k = some x → cache' k = some x) : CachedAt X P files cache' g t := by
  intro h1 h2
  obtain ⟨x, hx⟩ := Option.isSome_iff_exists.1 (h h1 h2)
  rw [hc _ x hx]; rfl

theorem PushPhase.mono {X : Tools C A S K} {P : Project C A} {files : Node → Option C} {cache cache' : K → Option C} {g : Nat} {ph : Phase} (h : PushPhase X P files cache g ph)
    (hc : ∀ k x, cache k = some x → cache' k = some x) : PushPhase X P files cache' g ph := by
  cases ph with
  | fetch rest got =>
    intro t ht
    obtain ⟨x, hx⟩ := Option.isSome_iff_exists.1 (h t ht)
    rw [hc _ x hx]; rfl
  | build => trivial
  | push rest => exact fun t ht => (h t ht).imp_right fun h => h.mono hc

theorem PushInv.mono {X : Tools C A S K} {files : Node → Option C} {cache cache' : K → Option C} {σ : Session C A S} (h : PushInv X files cache σ)
    (hc : ∀ k x, cache k = some x → cache' k = some x) : PushInv X files cache' σ :=
  ⟨fun g hg t ht => (h.done g hg t ht).mono hc, fun g j hj => (h.jobs g j hj).mono hc, h.bare⟩

theorem CachedAt.frame {X : Tools C A S K} {P : Project C A} (hW : WellFormed P) {files files' : Node → Option C} {cache : K → Option C} {g g0 : Nat} {t : Node} {done : List Nat}
    (h : CachedAt X P files cache g t) (ho : Only P g0 files files') (h0 : g0 ∉ done) (hr : Ready P files done g) (ht : t ∈ P.targets g) (hg : g ≠ g0) : CachedAt X P files' cache g t := by
  intro h1 h2
  rw [ho.recOf X hW h0 hr]
  rw [ho t fun hx => hg (hW.one t g g0 ht hx)] at h2
  exact h h1 h2

/-- A task at work changes its targets and its phase. -/
theorem PushInv.update {X : Tools C A S K} {clean : Bool} {files files' : Node → Option C} {cache : K → Option C} {σ : Session C A S} (hI : SessInv X clean files σ) (h : PushInv X files cache σ) {g0 : Nat} (h0 : g0 ∉ σ.done)
    (ho : Only σ.P g0 files files') (ph : Phase) (hp : PushPhase X σ.P files' cache g0 ph) {r : Rec S} {e : List Nat} :
    PushInv X files' cache { σ with exed := e, jobs := Function.update σ.jobs g0 (some ⟨r, ph⟩) } := by
  refine ⟨fun g hg t ht => ?_, fun g j hj => ?_, ?_⟩
  · exact (h.done g hg t ht).frame hI.wf ho h0 (hI.done g hg).1 ht fun e => h0 (e ▸ hg)
  · by_cases hgg : g = g0
    · subst hgg
      simp only [Function.update_self, Option.some.injEq] at hj
      subst hj
      exact hp
    · simp only [Function.update_of_ne hgg] at hj
      have hj' := h.jobs g j hj
      obtain ⟨-, hr, -, hph⟩ := hI.jobs g j hj
      obtain ⟨r', ph'⟩ := j
      cases ph' with
      | fetch rest got => exact fun t ht => by rw [ho.recOf X hI.wf h0 hr]; exact hj' t ht
      | build => trivial
      | push rest => exact fun t ht => (hj' t ht).imp_right fun hx => hx.frame hI.wf ho h0 hr ht hgg
  · rcases h.bare with hb | hb
    · exact Or.inl hb
    · refine Or.inr fun g hg hj t ht => ?_
      have hgg : g ≠ g0 := by
        rintro rfl
        simp at hj
      simp only [Function.update_of_ne hgg] at hj
      rw [ho t fun hx => hgg (hI.wf.one t g g0 ht hx)]
      exact hb g hg hj t ht

theorem mem_forced {fl : Flags} {ns : List Node} {t : Node} (h : fl.force = true) (ht : t ∈ ns) : t ∈ forced fl ns := by
  simp [forced, h, ht]

theorem begin_push {X : Tools C A S K} {clean : Bool} {files : Node → Option C} {cache : K → Option C} {σ : Session C A S} (hI : SessInv X clean files σ) (h : PushInv X files cache σ) {g : Nat}
    (hj : σ.jobs g = none) (h0 : g ∉ σ.done) : PushInv X (beginTask X g files σ).1 cache (beginTask X g files σ).2 := by
  unfold beginTask
  simp only
  split
  · rename_i hcur
    refine h.update hI h0 (Only.refl _ _ _) (.push _) fun t ht => ?_
    rcases h.bare with hb | hb
    · exact Or.inl (mem_forced hb ht)
    · obtain ⟨c1, c2⟩ := hcur t ht
      rcases hb g h0 hj t ht with hx | hx
      · rw [hx] at c2; cases c2
      · rw [hx] at c1; cases c1
  · exact h.update hI h0 (without_only fun _ h => h) (.fetch (σ.P.targets g) []) fun t ht => absurd ht List.not_mem_nil

theorem advance_push {X : Tools C A S K} {clean : Bool} {files : Node → Option C} {cache : K → Option C} {σ : Session C A S} (he : σ.fl.enabled = true) (hro : σ.fl.readonly = false)
    (hI : SessInv X clean files σ) (h : PushInv X files cache σ) {g : Nat} {j : Job S} (hj : σ.jobs g = some j) :
    PushInv X (advanceTask X g j files σ cache).1 (advanceTask X g j files σ cache).2.2 (advanceTask X g j files σ cache).2.1 := by
  obtain ⟨h0, hr, hrec, hp⟩ := hI.jobs g j hj
  have hph := h.jobs g j hj
  obtain ⟨r, ph⟩ := j
  simp only at hrec hp hph
  subst hrec
  cases ph with
  | fetch rest got =>
    obtain ⟨p1, p2, p3, p4⟩ := hp
    cases rest with
    | nil =>
      refine h.update hI h0 (Only.refl _ _ _) (.push _) fun t ht => Or.inr fun _ _ => ?_
      rcases p1 t ht with hx | hx
      · cases hx
      · exact hph t hx
    | cons n rest =>
      simp only [advanceTask]
      split
      · rename_i c hc
        have ho : Only σ.P g files (Function.update files n (some c)) := fun m hm => Function.update_of_ne (fun e => hm (by rw [e]; exact p2 n (by simp))) _ _
        refine h.update hI h0 ho (.fetch _ _) fun t ht => ?_
        rw [ho.recOf X hI.wf h0 hr]
        rcases List.mem_cons.1 ht with rfl | ht
        · unfold lookup at hc
          split at hc
          · rw [hc]; rfl
          · cases hc
        · exact hph t ht
      · exact h.update hI h0 (without_only fun t ht => (p3 t ht).1) .build trivial
  | build =>
    simp only [advanceTask]
    split
    · refine ⟨h.done, fun g' j hj' => ?_, ?_⟩
      · by_cases hgg : g' = g
        · subst hgg; simp at hj'
        · simp only [Function.update_of_ne hgg] at hj'
          exact h.jobs g' j hj'
      · rcases h.bare with hb | hb
        · exact Or.inl hb
        · refine Or.inr fun g' hg' hj' t ht => ?_
          by_cases hgg : g' = g
          · subst hgg; exact Or.inr (hp t ht)
          · simp only [Function.update_of_ne hgg] at hj'
            exact hb g' hg' hj' t ht
    · rename_i f hf
      refine h.update hI h0 (fun m hm => by simp [hm]) (.push _) fun t ht => Or.inl ?_
      exact List.mem_append_left _ ht
  | push rest =>
    cases rest with
    | nil =>
      refine ⟨fun g' hg' t ht => ?_, fun g' j hj' => ?_, ?_⟩
      · rcases List.mem_cons.1 hg' with rfl | hg'
        · rcases hph t ht with hx | hx
          · cases hx
          · exact hx
        · exact h.done g' hg' t ht
      · by_cases hgg : g' = g
        · subst hgg; simp [advanceTask] at hj'
        · simp only [advanceTask, Function.update_of_ne hgg] at hj'
          exact h.jobs g' j hj'
      · rcases h.bare with hb | hb
        · exact Or.inl hb
        · refine Or.inr fun g' hg' hj' t ht => ?_
          simp only [advanceTask, List.mem_cons, not_or] at hg' hj' ht ⊢
          rw [Function.update_of_ne hg'.1] at hj'
          have : t ∉ σ.P.targets g := fun hx => hg'.1 (hI.wf.one t g' g ht hx)
          rw [if_neg this]
          exact hb g' hg'.2 hj' t ht
    | cons n rest =>
      simp only [advanceTask]
      have hc : ∀ k x, cache k = some x → pushOne X σ (recOf X σ.P files g) files cache n k = some x := fun k x hk => by
        have := advance_cache (X := X) (files := files) (σ := σ) (g := g) (j := ⟨recOf X σ.P files g, .push (n :: rest)⟩) hk
        exact this
      refine (h.mono hc).update hI h0 (Only.refl _ _ _) (.push _) fun t ht => ?_
      rcases hph t ht with hx | hx
      · rcases List.mem_cons.1 hx with rfl | hx
        · right
          intro h1 h2
          by_cases hk : cache (keyOf X (recOf X σ.P files g) t) = none
          · simp only [pushOne, he, hro, h1, hk]
            simpa using h2
          · obtain ⟨x, hx⟩ := Option.ne_none_iff_exists'.1 hk
            rw [hc _ x hx]; rfl
        · exact Or.inl hx
      · exact Or.inr (hx.mono hc)

/-- **C110, pushed.**  A build with the cache enabled and not read only, in a tree in which nothing of its project was built before (or with `--cache-force`): each target of each task it has
done that is there is in the cache, except those of `NoCache`. -/
theorem C110_pushed {X : Tools C A S K} (hX : NoClash X) (hN : NameBlind X) {s0 : Sys C A S K} (h : Reach X Polite s0) {i : Nat} {P : Project C A} {fl : Flags} (hA : Allowed s0 (.start i P fl))
    (hPo : Polite s0 (.start i P fl)) (he : fl.enabled = true) (hro : fl.readonly = false)
    (hb : fl.force = true ∨ ∀ g, ∀ t ∈ P.targets g, (s0.tree i).db t = none ∨ (s0.tree i).files t = none) {l : List (Cmd C A K)} {s : Sys C A S K}
    (h' : Steps X Polite (step X s0 (.start i P fl)) l s) (h1 : ∀ k, .drop k ∉ l) (h2 : .kill i ∉ l) (h3 : .finish i ∉ l) :
    ∃ σ, (s.tree i).sess = some σ ∧ σ.P = P ∧ ∀ g ∈ σ.done, ∀ t ∈ P.targets g, P.nocache t = false → ((s.tree i).files t).isSome →
      (s.cache (keyOf X (recOf X P (s.tree i).files g) t)).isSome := by
  have key : Inv X s ∧ ∃ σ, (s.tree i).sess = some σ ∧ σ.P = P ∧ σ.fl = fl ∧ PushInv X (s.tree i).files s.cache σ := by
    induction h' with
    | refl =>
      refine ⟨step_inv hX hN (h.inv hX hN) hA hPo, ?_⟩
      simp only [step, Sys.put_tree, if_true]
      refine ⟨_, rfl, rfl, rfl, fun g hg => by simp at hg, fun g j hj => by simp at hj, ?_⟩
      rcases hb with hb | hb
      · exact Or.inl hb
      · exact Or.inr fun g _ _ t ht => hb g t ht
    | @tail s1 l c _ hA1 hP1 ih =>
      obtain ⟨a, σ, b, b1, b2, q⟩ := ih (fun k hx => h1 k (by simp [hx])) (fun hx => h2 (by simp [hx])) fun hx => h3 (by simp [hx])
      refine ⟨step_inv hX hN a hA1 hP1, ?_⟩
      have hc : ∀ k x, s1.cache k = some x → (step X s1 c).cache k = some x := fun k x hk => step_cache (fun k e => h1 k (by simp [e])) hk
      by_cases hat : c.at = some i
      swap
      · rw [step_elsewhere hat]; exact ⟨σ, b, b1, b2, q.mono hc⟩
      have hT := a.trees i
      simp only [TreeInv, b] at hT
      cases c with
      | edit k n x => cases hat; rw [(hA1 : (s1.tree i).sess = none)] at b; cases b
      | start k P' fl => cases hat; rw [(hA1 : _ ∧ _).1] at b; cases b
      | begin k g =>
        cases hat
        have hF := begin_frame X g (s1.tree i).files σ
        obtain ⟨j1, j2, j3⟩ := (hA1 : ∀ σ, (s1.tree i).sess = some σ → _) σ b
        simp only [step, b, Sys.put_tree, if_true]
        exact ⟨_, rfl, hF.proj.trans b1, hF.fl.trans b2, begin_push hT q j1 j2⟩
      | advance k g =>
        cases hat
        simp only [step, b]
        split
        · exact ⟨σ, b, b1, b2, q⟩
        · rename_i j hj
          have hF := advance_frame hT s1.cache hj
          simp only [Sys.put_tree, if_true]
          exact ⟨_, rfl, hF.proj.trans b1, hF.fl.trans b2, advance_push (by rw [b2]; exact he) (by rw [b2]; exact hro) hT q hj⟩
      | finish k => cases hat; exact absurd (by simp) h3
      | kill k => cases hat; exact absurd (by simp) h2
      | drop k => cases hat
  obtain ⟨-, σ, b, rfl, -, q⟩ := key
  exact ⟨σ, b, rfl, q.done⟩

/-! ## The second tree -/

/-- What holds of the second tree: as long as it builds the same project of the same sources and does nothing the first one did not do, no action of `D` is about to be executed. -/
def Second (P : Project C A) (F : Node → Option C) (D : List Nat) (T : Tree C A S) : Prop :=
  ∀ σ, T.sess = some σ → σ.P = P → σ.fl.enabled = true → T.clean = true → (∀ n, (∀ g, n ∉ P.targets g) → T.files n = F n) → (∀ g ∈ σ.done, g ∈ D) →
    ∀ g ∈ D, g ∉ σ.exed ∧ ∀ j, σ.jobs g = some j → j.ph ≠ .build

theorem step_second {X : Tools C A S K} {P : Project C A} {F : Node → Option C} {D : List Nat} (hM : ∀ g ∈ D, ∀ t ∈ P.targets g, Made X P F g t)
    (hnc : ∀ g ∈ D, ∀ t ∈ P.targets g, P.nocache t = false) {s : Sys C A S K} (hI : Inv X s)
    (hC : ∀ g ∈ D, ∀ t ∈ P.targets g, (s.cache (keyOf X (recOf X P F g) t)).isSome) {i : Nat} (h : Second P F D (s.tree i)) {c : Cmd C A K} (hA : Allowed s c) :
    Second P F D ((step X s c).tree i) := by
  by_cases hat : c.at = some i
  swap
  · rw [step_elsewhere hat]; exact h
  have hT := hI.trees i
  cases c with
  | edit k n x =>
    cases hat
    intro σ hs
    simp only [step, Sys.put_tree, if_true] at hs
    rw [(hA : (s.tree i).sess = none)] at hs; cases hs
  | start k P' fl =>
    cases hat
    intro σ hs _ _ _ _ _ g _
    simp only [step, Sys.put_tree, if_true, Option.some.injEq] at hs
    subst hs
    exact ⟨by simp, fun j hj => by simp at hj⟩
  | begin k g =>
    cases hat
    simp only [step]
    split
    · exact h
    · rename_i σ hs
      simp only [TreeInv, hs] at hT
      have hF := begin_frame X g (s.tree i).files σ
      intro σ' hs' e1 e2 e3 e4 e5 g' hg'
      simp only [Sys.put_tree, if_true, Option.some.injEq] at hs' e3 e4
      subst hs'
      have hold := h σ hs (hF.proj.symm.trans e1) (by rw [← hF.fl]; exact e2) e3
        (fun n hn => by rw [← e4 n hn]; exact (hF.files n (by rw [← hF.proj, e1]; exact hn g)).symm) (fun x hx => e5 x (hF.done x hx)) g' hg'
      by_cases hgg : g' = g
      · subst hgg
        refine ⟨fun hx => hold.1 ?_, fun j hj => ?_⟩
        · unfold beginTask at hx
          simp only at hx
          split at hx <;> exact hx
        · unfold beginTask at hj
          simp only at hj
          split at hj
          · simp only [Function.update_self, Option.some.injEq] at hj
            subst hj; nofun
          · simp only [Function.update_self, Option.some.injEq] at hj
            subst hj; nofun
      · exact ⟨fun hx => hold.1 ((hF.exed g' hgg).1 hx), fun j hj => hold.2 j (by rw [← hF.jobs g' hgg]; exact hj)⟩
  | advance k g =>
    cases hat
    simp only [step]
    split
    · exact h
    · rename_i σ hs
      split
      · exact h
      · rename_i j hj
        simp only [TreeInv, hs] at hT
        have hF := advance_frame hT s.cache hj
        intro σ' hs' e1 e2 e3 e4 e5 g' hg'
        simp only [Sys.put_tree, if_true, Option.some.injEq] at hs' e3 e4
        subst hs'
        have f1 : σ.P = P := hF.proj.symm.trans e1
        have f2 : σ.fl.enabled = true := by rw [← hF.fl]; exact e2
        have f4 : ∀ n, (∀ g, n ∉ P.targets g) → (s.tree i).files n = F n := fun n hn => by
          rw [← e4 n hn]; exact (hF.files n (by rw [f1]; exact hn g)).symm
        have f5 : ∀ x ∈ σ.done, x ∈ D := fun x hx => e5 x (hF.done x hx)
        have hold := h σ hs f1 f2 e3 f4 f5 g' hg'
        by_cases hgg : g' = g
        swap
        · exact ⟨fun hx => hold.1 ((hF.exed g' hgg).1 hx), fun j hj => hold.2 j (by rw [← hF.jobs g' hgg]; exact hj)⟩
        subst hgg
        subst f1
        obtain ⟨h0, hr, hrec, hp⟩ := hT.jobs g' j hj
        have hag := agree hT.wf hT.order (fun x hx => (hT.done x hx).2.1 e3) hM f5 f4
        have hre : recOf X σ.P (s.tree i).files g' = recOf X σ.P F g' := agree_rec hT.wf f4 hag hr
        have hb := hold.2 j hj
        obtain ⟨r, ph⟩ := j
        simp only at hrec hp
        subst hrec
        cases ph with
        | fetch rest got =>
          cases rest with
          | nil =>
            refine ⟨hold.1, fun j' hj' => ?_⟩
            simp only [advanceTask, Function.update_self, Option.some.injEq] at hj'
            subst hj'; nofun
          | cons n rest =>
            have hn : n ∈ σ.P.targets g' := hp.2.1 n (by simp)
            obtain ⟨x, hx⟩ := Option.isSome_iff_exists.1 (hC g' hg' n hn)
            have hl : lookup X σ (recOf X σ.P (s.tree i).files g') s.cache n = some x := by
              unfold lookup
              rw [if_pos ⟨f2, by rw [hnc g' hg' n hn]; simp⟩, hre, hx]
            refine ⟨fun hx => hold.1 ?_, fun j' hj' => ?_⟩
            · simp only [advanceTask, hl] at hx; exact hx
            · simp only [advanceTask, hl, Function.update_self, Option.some.injEq] at hj'
              subst hj'; nofun
        | build => exact absurd rfl hb
        | push rest =>
          cases rest with
          | nil =>
            refine ⟨hold.1, fun j' hj' => ?_⟩
            simp only [advanceTask, Function.update_self] at hj'
            cases hj'
          | cons n rest =>
            refine ⟨hold.1, fun j' hj' => ?_⟩
            simp only [advanceTask, Function.update_self, Option.some.injEq] at hj'
            subst hj'; nofun
  | finish k =>
    cases hat
    simp only [step]
    split
    · exact h
    · intro σ' hs'
      simp only [Sys.put_tree, if_true] at hs'
      cases hs'
  | kill k =>
    cases hat
    intro σ' hs'
    simp only [step, Sys.put_tree, if_true] at hs'
    cases hs'
  | drop k => cases hat

/-- **C110, the second tree.**  A build in tree `i`, from scratch (or with `--cache-force`) and pushing to the cache, has done tasks, all of whose targets are there and none of which is
excluded by `NoCache`.  Then a build of the same project over the same sources in another tree, started later with the cache enabled and asked for nothing else, executes no action at all,
whatever builds happen at the same time, as long as nothing is removed from the cache. -/
theorem C110_second_tree {X : Tools C A S K} (hX : NoClash X) (hN : NameBlind X) {s0 : Sys C A S K} (h : Reach X Polite s0) {i : Nat} {P : Project C A} {fl : Flags} (hA : Allowed s0 (.start i P fl))
    (hPo : Polite s0 (.start i P fl)) (he : fl.enabled = true) (hro : fl.readonly = false)
    (hb : fl.force = true ∨ ∀ g, ∀ t ∈ P.targets g, (s0.tree i).db t = none ∨ (s0.tree i).files t = none) {l : List (Cmd C A K)} {s : Sys C A S K}
    (h' : Steps X Polite (step X s0 (.start i P fl)) l s) (h1 : ∀ k, .drop k ∉ l) (h2 : .kill i ∉ l) (h3 : .finish i ∉ l)
    {σ : Session C A S} (hs : (s.tree i).sess = some σ) (hc : (s.tree i).clean = true) (hmade : ∀ g ∈ σ.done, ∀ t ∈ P.targets g, ((s.tree i).files t).isSome ∧ P.nocache t = false)
    {j : Nat} (hj : (s.tree j).sess = none) {l2 : List (Cmd C A K)} {s2 : Sys C A S K} (h4 : Steps X Polite s l2 s2) (h5 : ∀ k, .drop k ∉ l2) {σ2 : Session C A S} (hs2 : (s2.tree j).sess = some σ2)
    (hP2 : σ2.P = P) (he2 : σ2.fl.enabled = true) (hc2 : (s2.tree j).clean = true) (hsrc : ∀ n, (∀ g, n ∉ P.targets g) → (s2.tree j).files n = (s.tree i).files n)
    (hsub : ∀ g ∈ σ2.done, g ∈ σ.done) : (∀ g ∈ σ.done, g ∉ σ2.exed) ∧ ∀ g ∈ σ2.done, ∀ t ∈ P.targets g, (s2.tree j).files t = (s.tree i).files t := by
  obtain ⟨σ', b, b1, hpush⟩ := C110_pushed hX hN h hA hPo he hro hb h' h1 h2 h3
  rw [hs] at b
  cases b
  subst b1
  have hI : Inv X s := by
    exact steps_inv hX hN h' (step_inv hX hN (h.inv hX hN) hA hPo)
  have hS : SessInv X (s.tree i).clean (s.tree i).files σ := by
    have := hI.trees i
    simpa only [TreeInv, hs] using this
  have hM : ∀ g ∈ σ.done, ∀ t ∈ σ.P.targets g, Made X σ.P (s.tree i).files g t := fun g hg => (hS.done g hg).2.1 hc
  have key : Inv X s2 ∧ (∀ g ∈ σ.done, ∀ t ∈ σ.P.targets g, (s2.cache (keyOf X (recOf X σ.P (s.tree i).files g) t)).isSome) ∧ Second σ.P (s.tree i).files σ.done (s2.tree j) := by
    clear hsub hsrc hc2 he2 hP2 hs2
    induction h4 with
    | refl =>
      exact ⟨hI, fun g hg t ht => hpush g hg t ht (hmade g hg t ht).2 (hmade g hg t ht).1, fun σ' hs' => by rw [hj] at hs'; cases hs'⟩
    | @tail s1 l c _ hA1 hP1 ih =>
      obtain ⟨a, a1, a2⟩ := ih fun k hx => h5 k (by simp [hx])
      refine ⟨step_inv hX hN a hA1 hP1, fun g hg t ht => ?_, step_second hM (fun g hg t ht => (hmade g hg t ht).2) a a1 a2 hA1⟩
      obtain ⟨x, hx⟩ := Option.isSome_iff_exists.1 (a1 g hg t ht)
      rw [step_cache (fun k e => h5 k (by simp [e])) hx]; rfl
  refine ⟨fun g hg => (key.2.2 σ2 hs2 hP2 he2 hc2 hsrc hsub g hg).1, ?_⟩
  have hS2 : SessInv X (s2.tree j).clean (s2.tree j).files σ2 := by
    have := key.1.trees j
    simpa only [TreeInv, hs2] using this
  have hag := agree (X := X) hS2.wf hS2.order (fun g hg => (hS2.done g hg).2.1 hc2) (by rw [hP2]; exact hM) hsub (by rw [hP2]; exact hsrc)
  rw [hP2] at hag
  exact hag

end Verif.CacheSys
