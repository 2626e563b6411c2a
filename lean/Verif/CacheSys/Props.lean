import Verif.CacheSys.Inv

/-! # Builds that share a cache directory: theorems (C110) -/

namespace Verif.CacheSys

set_option linter.unusedSectionVars false

variable {C A S K : Type} [DecidableEq S] [DecidableEq K]

theorem Reach.sess {X : Tools C A S K} (hX : NoClash X) (hN : NameBlind X) {s : Sys C A S K} (h : Reach X Polite s) {i : Nat} {σ : Session C A S} (hs : (s.tree i).sess = some σ) :
    SessInv X (s.tree i).clean (s.tree i).files σ := by
  have := (h.inv hX hN).trees i
  simpa only [TreeInv, hs] using this

/-- **C110, correct.**  Whatever builds ran in whatever trees, at the same time or before, with whatever of their files retrieved from the cache: each target of each task a build has done
is what its action makes of the dependencies as they are now. -/
theorem C110_correct_partial {X : Tools C A S K} (hX : NoClash X) (hN : NameBlind X) {s : Sys C A S K} (h : Reach X Polite s) {i : Nat} (hc : (s.tree i).clean = true) {σ : Session C A S}
    (hs : (s.tree i).sess = some σ) {g : Nat} (hg : g ∈ σ.done) {t : Node} (ht : t ∈ σ.P.targets g) :
    ∃ f, X.exec (σ.P.act g) ((σ.P.deps g (s.tree i).files).map fun k => (k, (s.tree i).files k)) = some f ∧ (s.tree i).files t = f t :=
  ((h.sess hX hN hs).done g hg).2.1 hc t ht

/-- **C110, the cache is truthful.**  Each file of the cache is what an action makes of the dependencies it is named after, whatever was edited by hand in whatever trees and however many
builds were killed. -/
theorem C110_cache_truthful {X : Tools C A S K} (hX : NoClash X) (hN : NameBlind X) {s : Sys C A S K} (h : Reach X Polite s) {k : K} {c : C} (hk : s.cache k = some c) :
    ∃ a ins n f, k = X.key (ins.map fun d => X.h d.2) (X.hA a) n ∧ X.exec a ins = some f ∧ f n = some c := (h.inv hX hN).cache k c hk

/-! ## The same as without a cache -/

theorem agree {X : Tools C A S K} {P : Project C A} (hW : WellFormed P) {v v' : Node → Option C} {d D : List Nat} (hd : Ordered P v d) (hm : ∀ g ∈ d, ∀ t ∈ P.targets g, Made X P v g t)
    (hM : ∀ g ∈ D, ∀ t ∈ P.targets g, Made X P v' g t) (hsub : ∀ g ∈ d, g ∈ D) (hsrc : ∀ n, (∀ g, n ∉ P.targets g) → v n = v' n) : ∀ g ∈ d, ∀ t ∈ P.targets g, v t = v' t := by
  induction d with
  | nil => nofun
  | cons g d ih =>
    have ih' := ih hd.1 (fun g' h => hm g' (List.mem_cons_of_mem _ h)) fun g' h => hsub g' (List.mem_cons_of_mem _ h)
    intro g' hg' t ht
    rcases List.mem_cons.1 hg' with rfl | hg'
    · have hk : ∀ k ∈ P.deps g' v, v k = v' k := by
        intro k hk
        by_cases hx : ∃ g'', k ∈ P.targets g''
        · obtain ⟨g'', hg''⟩ := hx
          exact ih' g'' (hd.2 k hk g'' hg'') k hg''
        · exact hsrc k fun g'' hg'' => hx ⟨g'', hg''⟩
      have hdeps := hW.scan g' v v' hsrc hk
      have hin : inputs P v' g' = inputs P v g' := by
        unfold inputs
        rw [hdeps]
        exact List.map_congr_left fun k hk' => by rw [hk k hk']
      obtain ⟨f, e1, e2⟩ := hm g' (by simp) t ht
      obtain ⟨f', e3, e4⟩ := hM g' (hsub g' (by simp)) t ht
      rw [hin, e1] at e3
      cases e3
      rw [e2, e4]
    · exact ih' g' hg' t ht

/-- What a task reads is the same, if the sources and the tasks done are. -/
theorem agree_rec {X : Tools C A S K} {P : Project C A} (hW : WellFormed P) {v v' : Node → Option C} {d : List Nat} (hsrc : ∀ n, (∀ g, n ∉ P.targets g) → v n = v' n)
    (h : ∀ g ∈ d, ∀ t ∈ P.targets g, v t = v' t) {g : Nat} (hr : Ready P v d g) : recOf X P v g = recOf X P v' g := by
  have hk : ∀ k ∈ P.deps g v, v k = v' k := by
    intro k hk
    by_cases hx : ∃ g'', k ∈ P.targets g''
    · obtain ⟨g'', hg''⟩ := hx
      exact h g'' (hr k hk g'' hg'') k hg''
    · exact hsrc k fun g'' hg'' => hx ⟨g'', hg''⟩
  unfold recOf
  rw [hW.scan g v v' hsrc hk]
  congr 1
  exact List.map_congr_left fun k hk' => by rw [hk k hk']

/-- **C110, the same as without a cache.**  Two builds of a project over the same sources, in whatever systems — one with a shared cache and a history, the other one alone, from scratch and
without a cache — agree on all targets. -/
theorem C110_same_as_without_partial {X : Tools C A S K} (hX : NoClash X) (hN : NameBlind X) {s s' : Sys C A S K} (h : Reach X Polite s) (h' : Reach X Polite s') {i i' : Nat}
    (hc : (s.tree i).clean = true) (hc' : (s'.tree i').clean = true) {σ σ' : Session C A S} (hs : (s.tree i).sess = some σ) (hs' : (s'.tree i').sess = some σ') (hP : σ'.P = σ.P)
    (hsub : ∀ g ∈ σ.done, g ∈ σ'.done) (hsrc : ∀ n, (∀ g, n ∉ σ.P.targets g) → (s.tree i).files n = (s'.tree i').files n) :
    ∀ g ∈ σ.done, ∀ t ∈ σ.P.targets g, (s.tree i).files t = (s'.tree i').files t := by
  have a := h.sess hX hN hs
  have b := h'.sess hX hN hs'
  exact agree a.wf a.order (fun g hg => (a.done g hg).2.1 hc) (fun g hg => by have := (b.done g hg).2.1 hc'; rwa [hP] at this) hsub hsrc

/-! ## What one step changes -/

/-- What a step of a task leaves alone. -/
structure Frame (P : Project C A) (g : Nat) (files files' : Node → Option C) (σ σ' : Session C A S) : Prop where
  files : Only P g files files'
  proj : σ'.P = σ.P
  fl : σ'.fl = σ.fl
  mem : ∀ n, n ∉ P.targets g → σ'.mem n = σ.mem n
  jobs : ∀ g', g' ≠ g → σ'.jobs g' = σ.jobs g'
  exed : ∀ g', g' ≠ g → (g' ∈ σ'.exed ↔ g' ∈ σ.exed)
  done : ∀ g' ∈ σ.done, g' ∈ σ'.done

theorem begin_frame (X : Tools C A S K) (g : Nat) (files : Node → Option C) (σ : Session C A S) : Frame σ.P g files (beginTask X g files σ).1 σ (beginTask X g files σ).2 := by
  unfold beginTask
  simp only
  split
  · exact ⟨Only.refl _ _ _, rfl, rfl, fun _ _ => rfl, fun g' h => by simp [Function.update_of_ne h], fun _ _ => Iff.rfl, fun _ h => h⟩
  · exact ⟨without_only fun _ h => h, rfl, rfl, fun _ _ => rfl, fun g' h => by simp [Function.update_of_ne h], fun _ _ => Iff.rfl, fun _ h => h⟩

theorem advance_frame {X : Tools C A S K} {clean : Bool} {files : Node → Option C} {σ : Session C A S} (hI : SessInv X clean files σ) (cache : K → Option C) {g : Nat} {j : Job S} (hj : σ.jobs g = some j) :
    Frame σ.P g files (advanceTask X g j files σ cache).1 σ (advanceTask X g j files σ cache).2.1 := by
  obtain ⟨-, -, -, hp⟩ := hI.jobs g j hj
  obtain ⟨r, ph⟩ := j
  cases ph with
  | fetch rest got =>
    obtain ⟨p1, p2, p3, p4⟩ := hp
    cases rest with
    | nil => exact ⟨Only.refl _ _ _, rfl, rfl, fun _ _ => rfl, fun g' h => by simp [advanceTask, Function.update_of_ne h], fun _ _ => Iff.rfl, fun _ h => h⟩
    | cons n rest =>
      simp only [advanceTask]
      split
      · exact ⟨fun m hm => Function.update_of_ne (fun e => hm (by rw [e]; exact p2 n (by simp))) _ _, rfl, rfl, fun _ _ => rfl, fun g' h => by simp [Function.update_of_ne h], fun _ _ => Iff.rfl, fun _ h => h⟩
      · exact ⟨without_only fun t ht => (p3 t ht).1, rfl, rfl, fun _ _ => rfl, fun g' h => by simp [Function.update_of_ne h], fun _ _ => Iff.rfl, fun _ h => h⟩
  | build =>
    simp only [advanceTask]
    split
    · exact ⟨Only.refl _ _ _, rfl, rfl, fun _ _ => rfl, fun g' h => by simp [Function.update_of_ne h], fun g' h => by simp [h], fun _ h => h⟩
    · exact ⟨fun m hm => by simp [hm], rfl, rfl, fun _ _ => rfl, fun g' h => by simp [Function.update_of_ne h], fun g' h => by simp [h], fun _ h => h⟩
  | push rest =>
    cases rest with
    | nil => exact ⟨Only.refl _ _ _, rfl, rfl, fun n hn => by simp [advanceTask, hn], fun g' h => by simp [advanceTask, Function.update_of_ne h], fun _ _ => Iff.rfl, fun _ h => List.mem_cons_of_mem _ h⟩
    | cons n rest => exact ⟨Only.refl _ _ _, rfl, rfl, fun _ _ => rfl, fun g' h => by simp [advanceTask, Function.update_of_ne h], fun _ _ => Iff.rfl, fun _ h => h⟩

/-- The files of the cache stay. -/
theorem advance_cache {X : Tools C A S K} {files : Node → Option C} {σ : Session C A S} {cache : K → Option C} {g : Nat} {j : Job S} {k : K} {c : C} (h : cache k = some c) :
    (advanceTask X g j files σ cache).2.2 k = some c := by
  obtain ⟨r, ph⟩ := j
  cases ph with
  | fetch rest got =>
    cases rest with
    | nil => exact h
    | cons n rest => simp only [advanceTask]; split <;> exact h
  | build => simp only [advanceTask]; split <;> exact h
  | push rest =>
    cases rest with
    | nil => exact h
    | cons n rest =>
      simp only [advanceTask, pushOne]
      split
      · rename_i hx
        rw [Function.update_of_ne]
        · exact h
        · rintro rfl
          rw [hx.2.2.2] at h; cases h
      · exact h

theorem step_cache {X : Tools C A S K} {s : Sys C A S K} {c : Cmd C A K} (hd : ∀ k, c ≠ .drop k) {k : K} {x : C} (h : s.cache k = some x) : (step X s c).cache k = some x := by
  cases c with
  | edit i n c => exact h
  | start i P fl => exact h
  | begin i g => simp only [step]; split <;> exact h
  | advance i g =>
    simp only [step]
    split
    · exact h
    · split
      · exact h
      · exact advance_cache h
  | finish i => simp only [step]; split <;> exact h
  | kill i => exact h
  | drop k => exact absurd rfl (hd k)

/-- **C110, files of the cache stay.**  A build never replaces nor removes a file of the cache. -/
theorem C110_cache_stays {X : Tools C A S K} {Q : Sys C A S K → Cmd C A K → Prop} {s s' : Sys C A S K} {l : List (Cmd C A K)} (h : Steps X Q s l s') (hl : ∀ c ∈ l, ∀ k, c ≠ .drop k) {k : K} {x : C}
    (hk : s.cache k = some x) : s'.cache k = some x := by
  induction h with
  | refl => exact hk
  | tail _ _ _ ih => exact step_cache (hl _ (by simp)) (ih (fun c hc => hl c (by simp [hc])) )

/-- What happens elsewhere does not concern a tree. -/
def Cmd.at : Cmd C A K → Option Nat
  | .edit i _ _ => some i
  | .start i _ _ => some i
  | .begin i _ => some i
  | .advance i _ => some i
  | .finish i => some i
  | .kill i => some i
  | .drop _ => none

theorem step_elsewhere {X : Tools C A S K} {s : Sys C A S K} {c : Cmd C A K} {i : Nat} (h : c.at ≠ some i) : (step X s c).tree i = s.tree i := by
  have hput : ∀ k T, some k ≠ some i → (s.put k T).tree i = s.tree i := fun k T hk => by
    rw [Sys.put_tree, if_neg fun e => hk (by rw [e])]
  cases c with
  | edit k n c => exact hput k _ h
  | start k P fl => exact hput k _ h
  | begin k g =>
    simp only [step]
    split
    · rfl
    · exact hput k _ h
  | advance k g =>
    simp only [step]
    split
    · rfl
    · split
      · rfl
      · exact hput k _ h
  | finish k =>
    simp only [step]
    split
    · rfl
    · exact hput k _ h
  | kill k => exact hput k _ h
  | drop k => rfl

/-! ## Nothing is built twice -/

/-- The targets of these tasks are there and recorded as they would be recorded now. -/
structure Settled (X : Tools C A S K) (P : Project C A) (files : Node → Option C) (db : Node → Option (Rec S)) (D : List Nat) : Prop where
  order : Ordered P files D
  ready : ∀ g ∈ D, Ready P files D g
  cur : ∀ g ∈ D, ∀ t ∈ P.targets g, (files t).isSome ∧ db t = some (recOf X P files g)

theorem Settled.frame {X : Tools C A S K} {P : Project C A} (hW : WellFormed P) {files files' : Node → Option C} {db db' : Node → Option (Rec S)} {D : List Nat} (h : Settled X P files db D) {g : Nat} (hg : g ∉ D)
    (h1 : Only P g files files') (h2 : ∀ n, n ∉ P.targets g → db' n = db n) : Settled X P files' db' D := by
  refine ⟨h1.order hW hg h.order, fun g' hg' => h1.ready hW hg (h.ready g' hg'), fun g' hg' t ht => ?_⟩
  have hx : t ∉ P.targets g := fun hx => hg (hW.one t g' g ht hx ▸ hg')
  rw [h1 t hx, h2 t hx, h1.recOf X hW hg (h.ready g' hg')]
  exact h.cur g' hg' t ht

/-- What holds of a tree in which `D` is settled. -/
def Quiet (X : Tools C A S K) (P : Project C A) (D : List Nat) (f0 : Node → Option C) (T : Tree C A S) : Prop :=
  (∀ g ∈ D, ∀ t ∈ P.targets g, T.files t = f0 t) ∧ match T.sess with
    | none => Settled X P T.files T.db D
    | some σ => σ.P = P ∧ Settled X P T.files σ.mem D ∧ ∀ g ∈ D, g ∉ σ.exed ∧ ∀ j, σ.jobs g = some j → ∃ rest, j.ph = .push rest

theorem step_quiet {X : Tools C A S K} {P : Project C A} (hW : WellFormed P) {D : List Nat} {f0 : Node → Option C} {s : Sys C A S K} (hI : Inv X s) {i : Nat}
    (h : Quiet X P D f0 (s.tree i)) {c : Cmd C A K} (hA : Allowed s c) (h1 : ∀ n x, c ≠ .edit i n x) (h2 : c ≠ .kill i) (h3 : ∀ P' fl, c = .start i P' fl → P' = P) :
    Quiet X P D f0 ((step X s c).tree i) := by
  by_cases hat : c.at = some i
  swap
  · rw [step_elsewhere hat]; exact h
  obtain ⟨hf, h⟩ := h
  have hT := hI.trees i
  cases c with
  | edit k n x => cases hat; exact absurd rfl (h1 n x)
  | start k P' fl =>
    cases hat
    have := h3 P' fl rfl
    subst this
    simp only [step, Sys.put_tree, if_true]
    refine ⟨hf, rfl, ?_, fun g _ => ⟨by simp, fun j hj => by simp at hj⟩⟩
    have hs : (s.tree i).sess = none := (hA : _ ∧ _).1
    simp only [hs] at h
    exact h
  | begin k g =>
    cases hat
    simp only [step]
    split
    · exact ⟨hf, h⟩
    · rename_i σ hs
      simp only [hs] at h
      simp only [TreeInv, hs] at hT
      simp only [Sys.put_tree, if_true]
      obtain ⟨rfl, hS, hq⟩ := h
      have hF := begin_frame X g (s.tree i).files σ
      by_cases hg : g ∈ D
      · have hcur : beginTask X g (s.tree i).files σ = ((s.tree i).files, { σ with jobs := Function.update σ.jobs g (some ⟨recOf X σ.P (s.tree i).files g, .push (forced σ.fl (σ.P.targets g))⟩) }) := by
          unfold beginTask
          simp only
          rw [if_pos (hS.cur g hg)]
        rw [hcur]
        refine ⟨hf, rfl, hS, fun g' hg' => ⟨(hq g' hg').1, fun j hj => ?_⟩⟩
        by_cases hgg : g' = g
        · subst hgg
          simp only [Function.update_self, Option.some.injEq] at hj
          subst hj
          exact ⟨_, rfl⟩
        · simp only [Function.update_of_ne hgg] at hj
          exact (hq g' hg').2 j hj
      · refine ⟨fun g' hg' t ht => ?_, hF.proj, hS.frame hW hg hF.files hF.mem, fun g' hg' => ?_⟩
        · show (beginTask X g (s.tree i).files σ).1 t = _
          rw [hF.files t fun hx => hg (hW.one t g' g ht hx ▸ hg')]; exact hf g' hg' t ht
        · have hgg : g' ≠ g := fun e => hg (e ▸ hg')
          exact ⟨fun hx => (hq g' hg').1 ((hF.exed g' hgg).1 hx), fun j hj => (hq g' hg').2 j (by rw [← hF.jobs g' hgg]; exact hj)⟩
  | advance k g =>
    cases hat
    simp only [step]
    split
    · exact ⟨hf, h⟩
    · rename_i σ hs
      split
      · exact ⟨hf, h⟩
      · rename_i j hj
        simp only [hs] at h
        simp only [TreeInv, hs] at hT
        simp only [Sys.put_tree, if_true]
        obtain ⟨rfl, hS, hq⟩ := h
        have hF := advance_frame hT s.cache hj
        by_cases hg : g ∈ D
        · obtain ⟨rest, hr⟩ := (hq g hg).2 j hj
          have hrec := (hT.jobs g j hj).2.2.1
          obtain ⟨r, ph⟩ := j
          simp only at hr hrec
          subst hr hrec
          cases rest with
          | nil =>
            refine ⟨hf, rfl, ⟨hS.order, hS.ready, fun g' hg' t ht => ⟨(hS.cur g' hg' t ht).1, ?_⟩⟩, fun g' hg' => ⟨(hq g' hg').1, fun j hj => ?_⟩⟩
            · simp only [advanceTask]
              split
              · rename_i hx
                rw [hW.one t g' g ht hx]
              · exact (hS.cur g' hg' t ht).2
            · by_cases hgg : g' = g
              · subst hgg; simp [advanceTask] at hj
              · simp only [advanceTask, Function.update_of_ne hgg] at hj
                exact (hq g' hg').2 j hj
          | cons n rest =>
            refine ⟨hf, rfl, hS, fun g' hg' => ⟨(hq g' hg').1, fun j hj => ?_⟩⟩
            by_cases hgg : g' = g
            · subst hgg
              simp only [advanceTask, Function.update_self, Option.some.injEq] at hj
              subst hj
              exact ⟨_, rfl⟩
            · simp only [advanceTask, Function.update_of_ne hgg] at hj
              exact (hq g' hg').2 j hj
        · refine ⟨fun g' hg' t ht => ?_, hF.proj, hS.frame hW hg hF.files hF.mem, fun g' hg' => ?_⟩
          · show (advanceTask X g j (s.tree i).files σ s.cache).1 t = _
            rw [hF.files t fun hx => hg (hW.one t g' g ht hx ▸ hg')]; exact hf g' hg' t ht
          · have hgg : g' ≠ g := fun e => hg (e ▸ hg')
            exact ⟨fun hx => (hq g' hg').1 ((hF.exed g' hgg).1 hx), fun j hj => (hq g' hg').2 j (by rw [← hF.jobs g' hgg]; exact hj)⟩
  | finish k =>
    cases hat
    simp only [step]
    split
    · exact ⟨hf, h⟩
    · rename_i σ hs
      simp only [hs] at h
      simp only [Sys.put_tree, if_true]
      exact ⟨hf, h.2.1⟩
  | kill k => cases hat; exact absurd rfl h2
  | drop k => cases hat

/-- **C110, null build.**  After a build that made all targets of the tasks it did, further builds of the same project in this tree, with or without the cache, whatever happens in the other
trees and in the cache meanwhile, execute none of their actions and change none of their targets, until the tree is edited. -/
theorem C110_null_build {X : Tools C A S K} (hX : NoClash X) (hN : NameBlind X) {s : Sys C A S K} (h : Reach X Polite s) {i : Nat} {σ : Session C A S} (hs : (s.tree i).sess = some σ)
    (hfin : Allowed s (.finish i)) (hmade : ∀ g ∈ σ.done, ∀ t ∈ σ.P.targets g, ((s.tree i).files t).isSome) {l : List (Cmd C A K)} {s' : Sys C A S K}
    (h' : Steps X Polite (step X s (.finish i)) l s') (h1 : ∀ n x, .edit i n x ∉ l) (h2 : .kill i ∉ l) (h3 : ∀ P' fl, .start i P' fl ∈ l → P' = σ.P) :
    (∀ g ∈ σ.done, ∀ t ∈ σ.P.targets g, (s'.tree i).files t = (s.tree i).files t) ∧ ∀ σ', (s'.tree i).sess = some σ' → ∀ g ∈ σ.done, g ∉ σ'.exed := by
  have hI := h.inv hX hN
  have hS := h.sess hX hN hs
  have hI1 : Inv X (step X s (.finish i)) := step_inv hX hN hI hfin trivial
  have key : Inv X s' ∧ Quiet X σ.P σ.done (s.tree i).files (s'.tree i) := by
    induction h' with
    | refl =>
      refine ⟨hI1, ?_⟩
      simp only [step, hs, Sys.put_tree, if_true]
      exact ⟨fun _ _ _ _ => rfl, hS.order, fun g hg => (hS.done g hg).1, fun g hg t ht => ⟨hmade g hg t ht, (hS.done g hg).2.2 t ht⟩⟩
    | @tail s1 l c _ hA hP ih =>
      obtain ⟨a, b⟩ := ih (fun n x hx => h1 n x (by simp [hx])) (fun hx => h2 (by simp [hx])) fun P' fl hx => h3 P' fl (by simp [hx])
      exact ⟨step_inv hX hN a hA hP, step_quiet hS.wf a b hA (fun n x e => h1 n x (by simp [e])) (fun e => h2 (by simp [e])) fun P' fl e => h3 P' fl (by simp [e])⟩
  refine ⟨key.2.1, fun σ' hs' g hg => ?_⟩
  have := key.2.2
  simp only [hs'] at this
  exact (this.2.2 g hg).1

/-- **C110, sources.**  A build changes no file that is not a target of its tasks. -/
theorem C110_sources_untouched {X : Tools C A S K} (hX : NoClash X) (hN : NameBlind X) {s : Sys C A S K} (h : Reach X Polite s) {i : Nat} {σ : Session C A S} (hs : (s.tree i).sess = some σ)
    {l : List (Cmd C A K)} {s' : Sys C A S K} (h' : Steps X Polite s l s') (h2 : .kill i ∉ l) (h3 : .finish i ∉ l) :
    (∃ σ', (s'.tree i).sess = some σ' ∧ σ'.P = σ.P) ∧ ∀ n, (∀ g, n ∉ σ.P.targets g) → (s'.tree i).files n = (s.tree i).files n := by
  have hI := h.inv hX hN
  have key : Inv X s' ∧ (∃ σ', (s'.tree i).sess = some σ' ∧ σ'.P = σ.P) ∧ ∀ n, (∀ g, n ∉ σ.P.targets g) → (s'.tree i).files n = (s.tree i).files n := by
    induction h' with
    | refl => exact ⟨hI, ⟨σ, hs, rfl⟩, fun _ _ => rfl⟩
    | @tail s1 l c _ hA hP ih =>
      obtain ⟨a, ⟨σ1, b, b'⟩, e⟩ := ih (fun hx => h2 (by simp [hx])) fun hx => h3 (by simp [hx])
      refine ⟨step_inv hX hN a hA hP, ?_⟩
      by_cases hat : c.at = some i
      swap
      · rw [step_elsewhere hat]; exact ⟨⟨σ1, b, b'⟩, e⟩
      have hT := a.trees i
      simp only [TreeInv, b] at hT
      cases c with
      | edit k n x => cases hat; rw [(hA : (s1.tree i).sess = none)] at b; cases b
      | start k P' fl => cases hat; rw [(hA : _ ∧ _).1] at b; cases b
      | begin k g =>
        cases hat
        have hF := begin_frame X g (s1.tree i).files σ1
        simp only [step, b, Sys.put_tree, if_true]
        exact ⟨⟨_, rfl, hF.proj.trans b'⟩, fun n hn => (hF.files n (by rw [b']; exact hn g)).trans (e n hn)⟩
      | advance k g =>
        cases hat
        simp only [step, b]
        split
        · exact ⟨⟨σ1, b, b'⟩, e⟩
        · rename_i j hj
          have hF := advance_frame hT s1.cache hj
          simp only [Sys.put_tree, if_true]
          exact ⟨⟨_, rfl, hF.proj.trans b'⟩, fun n hn => (hF.files n (by rw [b']; exact hn g)).trans (e n hn)⟩
      | finish k => cases hat; exact absurd (by simp) h3
      | kill k => cases hat; exact absurd (by simp) h2
      | drop k => cases hat
  exact key.2

end Verif.CacheSys
