import Verif.CacheSys.Model
import Mathlib.Data.List.Basic

/-! # Builds that share a cache directory: what always holds (C110) -/

namespace Verif.CacheSys

set_option linter.unusedSectionVars false

variable {C A S K : Type} [DecidableEq S] [DecidableEq K]

/-- Signatures and cache names do not clash. -/
structure NoClash (X : Tools C A S K) : Prop where
  h : Function.Injective X.h
  hA : Function.Injective X.hA
  key : ∀ l a n l' a' n', X.key l a n = X.key l' a' n' → l = l' ∧ a = a' ∧ n = n'

/-- What actions make depends on the contents of the dependencies only, not on their names (names that are in the command line are part of the action). -/
def NameBlind (X : Tools C A S K) : Prop := ∀ a ins ins', ins.map (·.2) = ins'.map (·.2) → X.exec a ins = X.exec a ins'

/-- The dependencies of a task as they are now. -/
def inputs (P : Project C A) (files : Node → Option C) (g : Nat) : List (Node × Option C) := (P.deps g files).map fun k => (k, files k)

/-- A target is what the action makes of the dependencies as they are now. -/
def Made (X : Tools C A S K) (P : Project C A) (files : Node → Option C) (g : Nat) (t : Node) : Prop := ∃ f, X.exec (P.act g) (inputs P files g) = some f ∧ files t = f t

/-- A recorded file is what the action makes of the recorded dependencies. -/
def TruthfulAt (X : Tools C A S K) (files : Node → Option C) (db : Node → Option (Rec S)) (n : Node) : Prop :=
  ∀ r c, db n = some r → files n = some c → ∃ a ins f, X.hA a = r.act ∧ ins.map (fun d => (d.1, X.h d.2)) = r.deps ∧ X.exec a ins = some f ∧ f n = some c

/-- Each file of the cache is what an action makes of the dependencies it is named after. -/
def CacheTruthful (X : Tools C A S K) (cache : K → Option C) : Prop :=
  ∀ k c, cache k = some c → ∃ a ins n f, k = X.key (ins.map fun d => X.h d.2) (X.hA a) n ∧ X.exec a ins = some f ∧ f n = some c

/-- Tasks done, each after those that make its dependencies. -/
def Ordered (P : Project C A) (files : Node → Option C) : List Nat → Prop
  | [] => True
  | g :: d => Ordered P files d ∧ Ready P files d g

/-- What holds of a task at work. -/
def PhaseInv (X : Tools C A S K) (clean : Bool) (P : Project C A) (files : Node → Option C) (g : Nat) : Phase → Prop
  | .fetch rest got => (∀ t ∈ P.targets g, t ∈ rest ∨ t ∈ got) ∧ (∀ t ∈ rest, t ∈ P.targets g) ∧ (∀ t ∈ got, t ∈ P.targets g ∧ Made X P files g t) ∧ ∀ t ∈ P.targets g, t ∉ got → files t = none
  | .build => ∀ t ∈ P.targets g, files t = none
  | .push rest => (∀ t ∈ rest, t ∈ P.targets g ∧ Made X P files g t) ∧ (clean = true → ∀ t ∈ P.targets g, Made X P files g t)

/-- What holds of a running build. -/
structure SessInv (X : Tools C A S K) (clean : Bool) (files : Node → Option C) (σ : Session C A S) : Prop where
  wf : WellFormed σ.P
  force : σ.fl.force = true → clean = true
  mem : clean = true → ∀ n, (∀ g, (σ.jobs g).isSome → n ∉ σ.P.targets g) → TruthfulAt X files σ.mem n
  order : Ordered σ.P files σ.done
  done : ∀ g ∈ σ.done, Ready σ.P files σ.done g ∧ (clean = true → ∀ t ∈ σ.P.targets g, Made X σ.P files g t) ∧ ∀ t ∈ σ.P.targets g, σ.mem t = some (recOf X σ.P files g)
  jobs : ∀ g j, σ.jobs g = some j → g ∉ σ.done ∧ Ready σ.P files σ.done g ∧ j.r = recOf X σ.P files g ∧ PhaseInv X clean σ.P files g j.ph

/-- What holds of a tree. -/
def TreeInv (X : Tools C A S K) (T : Tree C A S) : Prop := match T.sess with
  | none => T.clean = true → ∀ n, TruthfulAt X T.files T.db n
  | some σ => SessInv X T.clean T.files σ

/-- What holds of the system. -/
structure Inv (X : Tools C A S K) (s : Sys C A S K) : Prop where
  trees : ∀ i, TreeInv X (s.tree i)
  cache : CacheTruthful X s.cache

/-! ## Changing the targets of a task that is not done -/

/-- What a task at work may change. -/
def Only (P : Project C A) (g0 : Nat) (files files' : Node → Option C) : Prop := ∀ n, n ∉ P.targets g0 → files' n = files n

theorem Only.refl (P : Project C A) (g0 : Nat) (files : Node → Option C) : Only P g0 files files := fun _ _ => rfl

section frame

variable {P : Project C A} {files files' : Node → Option C} {done : List Nat} {g g0 : Nat}

theorem Only.keeps (h : Only P g0 files files') (h0 : g0 ∉ done) (hr : Ready P files done g) : ∀ k ∈ P.deps g files, files' k = files k :=
  fun k hk => h k fun hx => h0 (hr k hk g0 hx)

theorem Only.deps (hW : WellFormed P) (h : Only P g0 files files') (h0 : g0 ∉ done) (hr : Ready P files done g) : P.deps g files' = P.deps g files :=
  hW.scan g files files' (fun n hn => (h n (hn g0)).symm) fun k hk => (h.keeps h0 hr k hk).symm

theorem Only.inputs (hW : WellFormed P) (h : Only P g0 files files') (h0 : g0 ∉ done) (hr : Ready P files done g) : inputs P files' g = inputs P files g := by
  unfold CacheSys.inputs
  rw [h.deps hW h0 hr]
  exact List.map_congr_left fun k hk => by rw [h.keeps h0 hr k hk]

theorem Only.recOf (X : Tools C A S K) (hW : WellFormed P) (h : Only P g0 files files') (h0 : g0 ∉ done) (hr : Ready P files done g) : recOf X P files' g = recOf X P files g := by
  unfold CacheSys.recOf
  rw [h.deps hW h0 hr]
  congr 1
  exact List.map_congr_left fun k hk => by rw [h.keeps h0 hr k hk]

theorem Only.ready (hW : WellFormed P) (h : Only P g0 files files') (h0 : g0 ∉ done) (hr : Ready P files done g) : Ready P files' done g := by
  unfold Ready; rw [h.deps hW h0 hr]; exact hr

theorem Only.order (hW : WellFormed P) (h : Only P g0 files files') (h0 : g0 ∉ done) (ho : Ordered P files done) : Ordered P files' done := by
  induction done with
  | nil => trivial
  | cons g d ih =>
    rw [List.mem_cons, not_or] at h0
    exact ⟨ih h0.2 ho.1, h.ready hW h0.2 ho.2⟩

theorem Only.made (X : Tools C A S K) (hW : WellFormed P) (h : Only P g0 files files') (h0 : g0 ∉ done) (hr : Ready P files done g) {t : Node} (ht : t ∈ P.targets g) (hg : g ≠ g0) :
    Made X P files g t → Made X P files' g t := by
  rintro ⟨f, h1, h2⟩
  exact ⟨f, by rw [h.inputs hW h0 hr]; exact h1, by rw [h t fun hx => hg (hW.one t g g0 ht hx)]; exact h2⟩

theorem Only.phase (X : Tools C A S K) {clean : Bool} (hW : WellFormed P) (h : Only P g0 files files') (h0 : g0 ∉ done) (hr : Ready P files done g) (hg : g ≠ g0) {ph : Phase}
    (hp : PhaseInv X clean P files g ph) : PhaseInv X clean P files' g ph := by
  have hf : ∀ t ∈ P.targets g, files' t = files t := fun t ht => h t fun hx => hg (hW.one t g g0 ht hx)
  cases ph with
  | fetch rest got =>
    obtain ⟨a, b, c, d⟩ := hp
    exact ⟨a, b, fun t ht => ⟨(c t ht).1, h.made X hW h0 hr (c t ht).1 hg (c t ht).2⟩, fun t ht hx => by rw [hf t ht]; exact d t ht hx⟩
  | build => exact fun t ht => by rw [hf t ht]; exact hp t ht
  | push rest =>
    obtain ⟨a, b⟩ := hp
    exact ⟨fun t ht => ⟨(a t ht).1, h.made X hW h0 hr (a t ht).1 hg (a t ht).2⟩, fun hc t ht => h.made X hW h0 hr ht hg (b hc t ht)⟩

/-- A task at work changes its targets and its phase. -/
theorem SessInv.update {X : Tools C A S K} {clean : Bool} {σ : Session C A S} (hI : SessInv X clean files σ) (h0 : g0 ∉ σ.done) (hr : Ready σ.P files σ.done g0)
    (h : Only σ.P g0 files files') (ph : Phase) (hp : PhaseInv X clean σ.P files' g0 ph) {e : List Nat} :
    SessInv X clean files' { σ with exed := e, jobs := Function.update σ.jobs g0 (some ⟨CacheSys.recOf X σ.P files g0, ph⟩) } := by
  refine ⟨hI.wf, hI.force, fun hc n hn => ?_, h.order hI.wf h0 hI.order, fun g hg => ?_, fun g j hj => ?_⟩
  · have hn0 : n ∉ σ.P.targets g0 := hn g0 (by simp)
    intro r c h1 h2
    rw [h n hn0] at h2
    refine hI.mem hc n (fun g hg => ?_) r c h1 h2
    by_cases hgg : g = g0
    · rw [hgg]; exact hn0
    · exact hn g (by simpa [Function.update_of_ne hgg] using hg)
  · obtain ⟨a, b, c⟩ := hI.done g hg
    have hgg : g ≠ g0 := fun e => h0 (e ▸ hg)
    exact ⟨h.ready hI.wf h0 a, fun hc t ht => h.made X hI.wf h0 a ht hgg (b hc t ht), fun t ht => by rw [h.recOf X hI.wf h0 a]; exact c t ht⟩
  · by_cases hgg : g = g0
    · subst hgg
      simp only [Function.update_self, Option.some.injEq] at hj
      subst hj
      exact ⟨h0, h.ready hI.wf h0 hr, (h.recOf X hI.wf h0 hr).symm, hp⟩
    · simp only [Function.update_of_ne hgg] at hj
      obtain ⟨a, b, c, d⟩ := hI.jobs g j hj
      exact ⟨a, h.ready hI.wf h0 b, by rw [h.recOf X hI.wf h0 b]; exact c, h.phase X hI.wf h0 b hgg d⟩

end frame

theorem without_only {P : Project C A} {g : Nat} {files : Node → Option C} {ns : List Node} (h : ∀ n ∈ ns, n ∈ P.targets g) : Only P g files (without files ns) := by
  intro n hn
  simp only [without]
  rw [if_neg fun hx => hn (h n hx)]

theorem forced_sub {fl : Flags} {ns : List Node} {t : Node} (h : t ∈ forced fl ns) : t ∈ ns ∧ fl.force = true := by
  unfold forced at h
  split at h
  · exact ⟨h, by assumption⟩
  · cases h

theorem map_pair_inj {l l' : List (Node × Option C)} {X : Tools C A S K} (hX : NoClash X) (h : l.map (fun d => (d.1, X.h d.2)) = l'.map (fun d => (d.1, X.h d.2))) : l = l' := by
  refine List.map_injective_iff.2 ?_ h
  rintro ⟨a, b⟩ ⟨a', b'⟩ h
  simp only [Prod.mk.injEq] at h
  rw [h.1, hX.h h.2]

/-- A target that is recorded as it would be recorded now is what the action makes. -/
theorem made_of_current {X : Tools C A S K} (hX : NoClash X) {P : Project C A} {files : Node → Option C} {db : Node → Option (Rec S)} {g : Nat} {t : Node} (h : TruthfulAt X files db t)
    (h1 : (files t).isSome) (h2 : db t = some (recOf X P files g)) : Made X P files g t := by
  obtain ⟨c, hc⟩ := Option.isSome_iff_exists.1 h1
  obtain ⟨a, ins, f, e1, e2, e3, e4⟩ := h _ c h2 hc
  have ha : a = P.act g := hX.hA e1
  have hi : ins = inputs P files g := map_pair_inj hX (by rw [e2]; simp [recOf, inputs, Function.comp_def])
  exact ⟨f, by rw [← ha, ← hi]; exact e3, by rw [hc, e4]⟩

theorem begin_inv {X : Tools C A S K} (hX : NoClash X) {clean : Bool} {files : Node → Option C} {σ : Session C A S} (hI : SessInv X clean files σ) {g : Nat} (hj : σ.jobs g = none) (h0 : g ∉ σ.done)
    (hr : Ready σ.P files σ.done g) : SessInv X clean (beginTask X g files σ).1 (beginTask X g files σ).2 := by
  unfold beginTask
  simp only
  split
  · rename_i hcur
    have hm : clean = true → ∀ t ∈ σ.P.targets g, Made X σ.P files g t := fun hc t ht => by
      refine made_of_current hX (hI.mem hc t fun g' hg' hx => ?_) (hcur t ht).1 (hcur t ht).2
      rw [hI.wf.one t g' g hx ht, hj] at hg'
      cases hg'
    exact hI.update h0 hr (Only.refl _ _ _) (.push _) ⟨fun t ht => ⟨(forced_sub ht).1, hm (hI.force (forced_sub ht).2) t (forced_sub ht).1⟩, hm⟩
  · exact hI.update h0 hr (without_only fun _ h => h) (.fetch (σ.P.targets g) []) ⟨fun t ht => Or.inl ht, fun t ht => ht, fun t ht => absurd ht List.not_mem_nil, fun t ht _ => by simp [without, ht]⟩

/-- What is found in the cache is what the action makes. -/
theorem lookup_made {X : Tools C A S K} (hX : NoClash X) (hN : NameBlind X) {cache : K → Option C} (hC : CacheTruthful X cache) {σ : Session C A S} {files : Node → Option C} {g : Nat} {t : Node} {c : C}
    (h : lookup X σ (recOf X σ.P files g) cache t = some c) : ∃ f, X.exec (σ.P.act g) (inputs σ.P files g) = some f ∧ f t = some c := by
  unfold lookup at h
  split at h
  · obtain ⟨a, ins, n, f, e1, e2, e3⟩ := hC _ c h
    obtain ⟨k1, k2, k3⟩ := hX.key _ _ _ _ _ _ e1
    have ha : σ.P.act g = a := hX.hA k2
    refine ⟨f, ?_, by rw [k3]; exact e3⟩
    rw [ha, hN a _ ins, e2]
    have : ((inputs σ.P files g).map (·.2)).map X.h = (ins.map (·.2)).map X.h := by
      rw [List.map_map, List.map_map]
      refine Eq.trans ?_ k1
      simp [recOf, inputs, Function.comp_def]
    exact List.map_injective_iff.2 hX.h this
  · cases h

theorem pushOne_truthful {X : Tools C A S K} {cache : K → Option C} (hC : CacheTruthful X cache) {σ : Session C A S} {files : Node → Option C} {g : Nat} {t : Node}
    (h : Made X σ.P files g t) : CacheTruthful X (pushOne X σ (recOf X σ.P files g) files cache t) := by
  unfold pushOne
  split
  · intro k c hk
    by_cases hkk : k = keyOf X (recOf X σ.P files g) t
    · subst hkk
      rw [Function.update_self] at hk
      obtain ⟨f, e1, e2⟩ := h
      exact ⟨_, _, t, f, by simp [keyOf, recOf, inputs, Function.comp_def], e1, by rw [← e2, hk]⟩
    · rw [Function.update_of_ne hkk] at hk
      exact hC k c hk
  · exact hC

/-- A failed task: the job ends. -/
theorem SessInv.fail {X : Tools C A S K} {clean : Bool} {files : Node → Option C} {σ : Session C A S} (hI : SessInv X clean files σ) {g : Nat} {e : List Nat} (hf : ∀ t ∈ σ.P.targets g, files t = none) :
    SessInv X clean files { σ with exed := e, jobs := Function.update σ.jobs g none } := by
  refine ⟨hI.wf, hI.force, fun hc n hn => ?_, hI.order, hI.done, fun g' j hj => ?_⟩
  · by_cases hx : n ∈ σ.P.targets g
    · intro r c h1 h2
      rw [hf n hx] at h2; cases h2
    · refine hI.mem hc n fun g' hg' => ?_
      by_cases hgg : g' = g
      · rw [hgg]; exact hx
      · exact hn g' (by simpa [Function.update_of_ne hgg] using hg')
  · by_cases hgg : g' = g
    · subst hgg; simp at hj
    · simp only [Function.update_of_ne hgg] at hj
      exact hI.jobs g' j hj

theorem Ready.mono {P : Project C A} {files : Node → Option C} {d d' : List Nat} {g : Nat} (h : Ready P files d g) (hs : ∀ x ∈ d, x ∈ d') : Ready P files d' g :=
  fun k hk g' hg' => hs _ (h k hk g' hg')

/-- A task is done. -/
theorem SessInv.finish {X : Tools C A S K} {clean : Bool} {files : Node → Option C} {σ : Session C A S} (hI : SessInv X clean files σ) {g : Nat} (h0 : g ∉ σ.done) (hr : Ready σ.P files σ.done g)
    (hm : clean = true → ∀ t ∈ σ.P.targets g, Made X σ.P files g t) :
    SessInv X clean files { σ with mem := fun n => if n ∈ σ.P.targets g then some (recOf X σ.P files g) else σ.mem n, done := g :: σ.done, jobs := Function.update σ.jobs g none } := by
  refine ⟨hI.wf, hI.force, fun hc n hn => ?_, ⟨hI.order, hr⟩, fun g' hg' => ?_, fun g' j hj => ?_⟩
  · intro r c h1 h2
    by_cases hx : n ∈ σ.P.targets g
    · simp only [hx, if_true, Option.some.injEq] at h1
      subst h1
      obtain ⟨f, e1, e2⟩ := hm hc n hx
      exact ⟨_, _, f, rfl, by simp [recOf, inputs, Function.comp_def], e1, by rw [← e2, h2]⟩
    · simp only [hx, if_false] at h1
      refine hI.mem hc n (fun g' hg' => ?_) r c h1 h2
      by_cases hgg : g' = g
      · rw [hgg]; exact hx
      · exact hn g' (by simpa [Function.update_of_ne hgg] using hg')
  · have hs : ∀ x ∈ σ.done, x ∈ g :: σ.done := fun x hx => List.mem_cons_of_mem _ hx
    rcases List.mem_cons.1 hg' with rfl | hg'
    · exact ⟨hr.mono hs, hm, fun t ht => by simp [ht]⟩
    · obtain ⟨a, b, c⟩ := hI.done g' hg'
      refine ⟨a.mono hs, b, fun t ht => ?_⟩
      have : t ∉ σ.P.targets g := fun hx => h0 (hI.wf.one t g' g ht hx ▸ hg')
      simp only [this, if_false]
      exact c t ht
  · by_cases hgg : g' = g
    · subst hgg; simp at hj
    · simp only [Function.update_of_ne hgg] at hj
      obtain ⟨a, b, c, d⟩ := hI.jobs g' j hj
      exact ⟨by rw [List.mem_cons, not_or]; exact ⟨hgg, a⟩, b.mono fun x hx => List.mem_cons_of_mem _ hx, c, d⟩

theorem rec_inputs {X : Tools C A S K} {P : Project C A} {files : Node → Option C} {g : Nat} : ((recOf X P files g).deps.map fun d => (d.1, files d.1)) = inputs P files g := by
  simp [recOf, inputs, Function.comp_def]

/-- A task does its next step. -/
theorem advance_inv {X : Tools C A S K} (hX : NoClash X) (hN : NameBlind X) {clean : Bool} {files : Node → Option C} {σ : Session C A S} (hI : SessInv X clean files σ) {cache : K → Option C}
    (hC : CacheTruthful X cache) {g : Nat} {j : Job S} (hj : σ.jobs g = some j) :
    SessInv X clean (advanceTask X g j files σ cache).1 (advanceTask X g j files σ cache).2.1 ∧ CacheTruthful X (advanceTask X g j files σ cache).2.2 := by
  obtain ⟨h0, hr, hrec, hp⟩ := hI.jobs g j hj
  obtain ⟨r, ph⟩ := j
  simp only at hrec hp
  subst hrec
  cases ph with
  | fetch rest got =>
    obtain ⟨p1, p2, p3, p4⟩ := hp
    cases rest with
    | nil =>
      have hm : ∀ t ∈ σ.P.targets g, Made X σ.P files g t := fun t ht => by
        rcases p1 t ht with h | h
        · cases h
        · exact (p3 t h).2
      exact ⟨hI.update h0 hr (Only.refl _ _ _) (.push _) ⟨fun t ht => ⟨(forced_sub ht).1, hm t (forced_sub ht).1⟩, fun _ => hm⟩, hC⟩
    | cons n rest =>
      simp only [advanceTask]
      split
      · rename_i c hc
        refine ⟨?_, hC⟩
        obtain ⟨f, e1, e2⟩ := lookup_made hX hN hC hc
        have ho : Only σ.P g files (Function.update files n (some c)) := fun m hm => Function.update_of_ne (fun e => hm (by rw [e]; exact p2 n (by simp))) _ _
        have hin : X.exec (σ.P.act g) (inputs σ.P (Function.update files n (some c)) g) = some f := by rw [ho.inputs hI.wf h0 hr]; exact e1
        refine hI.update h0 hr ho (.fetch _ _) ⟨fun t ht => ?_, fun t ht => p2 t (List.mem_cons_of_mem _ ht), fun t ht => ?_, fun t ht hx => ?_⟩
        · rcases p1 t ht with h | h
          · rcases List.mem_cons.1 h with rfl | h
            · exact Or.inr (by simp)
            · exact Or.inl h
          · exact Or.inr (List.mem_cons_of_mem _ h)
        · by_cases htn : t = n
          · subst htn
            exact ⟨p2 t (by simp), f, hin, by rw [Function.update_self, e2]⟩
          · rcases List.mem_cons.1 ht with rfl | ht
            · exact absurd rfl htn
            · obtain ⟨q1, f', q2, q3⟩ := p3 t ht
              rw [e1] at q2
              cases q2
              exact ⟨q1, f, hin, by rw [Function.update_of_ne htn, q3]⟩
        · rw [List.mem_cons, not_or] at hx
          rw [Function.update_of_ne hx.1]
          exact p4 t ht hx.2
      · refine ⟨hI.update h0 hr (without_only fun t ht => (p3 t ht).1) .build fun t ht => ?_, hC⟩
        simp only [without]
        split
        · rfl
        · rename_i hx
          exact p4 t ht hx
  | build =>
    simp only [advanceTask, rec_inputs]
    split
    · exact ⟨hI.fail hp, hC⟩
    · rename_i f hf
      refine ⟨?_, hC⟩
      have ho : Only σ.P g files (fun n => if n ∈ σ.P.targets g then f n else files n) := fun m hm => by simp [hm]
      have hm : ∀ t ∈ σ.P.targets g, Made X σ.P (fun n => if n ∈ σ.P.targets g then f n else files n) g t := fun t ht =>
        ⟨f, by rw [ho.inputs hI.wf h0 hr]; exact hf, by simp [ht]⟩
      refine hI.update h0 hr ho (.push _) ⟨fun t ht => ?_, fun _ => hm⟩
      have : t ∈ σ.P.targets g := by
        rcases List.mem_append.1 ht with h | h
        · exact h
        · exact (forced_sub h).1
      exact ⟨this, hm t this⟩
  | push rest =>
    obtain ⟨p1, p2⟩ := hp
    cases rest with
    | nil => exact ⟨hI.finish h0 hr p2, hC⟩
    | cons n rest =>
      exact ⟨hI.update h0 hr (Only.refl _ _ _) (.push _) ⟨fun t ht => p1 t (List.mem_cons_of_mem _ ht), p2⟩, pushOne_truthful hC (p1 n (by simp)).2⟩

theorem Sys.put_tree (s : Sys C A S K) (i k : Nat) (T : Tree C A S) : (s.put i T).tree k = if k = i then T else s.tree k := by
  simp only [Sys.put]
  by_cases h : k = i
  · subst h; simp
  · simp [h]

theorem Inv.put {X : Tools C A S K} {s : Sys C A S K} (hI : Inv X s) {i : Nat} {T : Tree C A S} (h : TreeInv X T) : Inv X (s.put i T) := by
  refine ⟨fun k => ?_, hI.cache⟩
  rw [Sys.put_tree]
  split
  · exact h
  · exact hI.trees k

theorem step_inv {X : Tools C A S K} (hX : NoClash X) (hN : NameBlind X) {s : Sys C A S K} (hI : Inv X s) {c : Cmd C A K} (hA : Allowed s c) (hP : Polite s c) : Inv X (step X s c) := by
  cases c with
  | edit i n c =>
    refine hI.put ?_
    have hs : (s.tree i).sess = none := hA
    have ht := hI.trees i
    simp only [TreeInv, hs] at ht ⊢
    intro hc m r c' h1 h2
    simp only [Bool.and_eq_true, Bool.or_eq_true, Option.isNone_iff_eq_none] at hc
    by_cases hm : m = n
    · subst hm
      rw [Function.update_self] at h2
      rcases hc.2 with h | h
      · rw [h] at h2; cases h2
      · rw [h] at h1; cases h1
    · rw [Function.update_of_ne hm] at h2
      exact ht hc.1 m r c' h1 h2
  | start i P fl =>
    refine hI.put ?_
    obtain ⟨hs, hW⟩ : (s.tree i).sess = none ∧ WellFormed P := hA
    have ht := hI.trees i
    simp only [TreeInv, hs] at ht ⊢
    exact ⟨hW, hP, fun hc n _ => ht hc n, trivial, fun g hg => by simp at hg, fun g j hj => by simp at hj⟩
  | begin i g =>
    have ht := hI.trees i
    simp only [step]
    split
    · exact hI
    · rename_i σ hs
      refine hI.put ?_
      simp only [TreeInv, hs] at ht ⊢
      obtain ⟨h1, h2, h3⟩ := (hA : ∀ σ, (s.tree i).sess = some σ → _) σ hs
      exact begin_inv hX ht h1 h2 h3
  | advance i g =>
    have ht := hI.trees i
    simp only [step]
    split
    · exact hI
    · rename_i σ hs
      split
      · exact hI
      · rename_i j hj
        simp only [TreeInv, hs] at ht
        obtain ⟨h1, h2⟩ := advance_inv hX hN ht hI.cache hj
        refine ⟨fun k => ?_, h2⟩
        exact (hI.put (T := { s.tree i with files := (advanceTask X g j (s.tree i).files σ s.cache).1, sess := some (advanceTask X g j (s.tree i).files σ s.cache).2.1 }) h1).trees k
  | finish i =>
    have ht := hI.trees i
    simp only [step]
    split
    · exact hI
    · rename_i σ hs
      refine hI.put ?_
      simp only [TreeInv, hs] at ht ⊢
      intro hc n
      exact ht.mem hc n fun g hg => by rw [(hA : ∀ σ, (s.tree i).sess = some σ → _) σ hs g] at hg; cases hg
  | kill i =>
    refine hI.put ?_
    simp only [TreeInv]
    intro h; cases h
  | drop k =>
    refine ⟨hI.trees, fun k' c h => ?_⟩
    by_cases hk : k' = k
    · subst hk; simp [step] at h
    · simp only [step, Function.update_of_ne hk] at h
      exact hI.cache k' c h

theorem steps_inv {X : Tools C A S K} (hX : NoClash X) (hN : NameBlind X) {s s' : Sys C A S K} {l : List (Cmd C A K)} (h : Steps X Polite s l s') (hI : Inv X s) : Inv X s' := by
  induction h with
  | refl => exact hI
  | tail _ hA hP ih => exact step_inv hX hN ih hA hP

theorem Fresh.inv {X : Tools C A S K} {s : Sys C A S K} (h : Fresh s) : Inv X s := by
  refine ⟨fun i => ?_, fun k c hc => ?_⟩
  · simp only [TreeInv, h.sess i]
    intro _ n r c h1
    rw [h.db i n] at h1; cases h1
  · rw [h.cache k] at hc; cases hc

theorem Reach.inv {X : Tools C A S K} (hX : NoClash X) (hN : NameBlind X) {s : Sys C A S K} (h : Reach X Polite s) : Inv X s := by
  obtain ⟨s0, l, h0, h⟩ := h
  exact steps_inv hX hN h h0.inv

end Verif.CacheSys
