import Verif.TM.Only
import Verif.TM.Groups
import Verif.Build.NullBuild

/-!
# `scons -c`: C58

`CleanTask` (`Script/Main.py:375-445`) in place of `BuildTask`: `make_ready` is `make_ready_all`, so a task is handed out for every node the walk reaches, sources
included; `prepare()` does nothing; `execute()` removes files; `executed()` is `executed_without_callbacks`, so what a scan found is never forgotten and nothing
is stored.

Simplifications: scans do not raise (in the code, `prepare()` being empty, the exception of a scan is dropped silently); a name given to `Clean()` stands for one file
(directories: `fs_delete` in `Verif.Script.FsDelete`); `os.unlink` either removes a file or, for the files `stuck`, always raises `OSError`.
-/

set_option linter.unusedSectionVars false
set_option linter.unusedVariables false

namespace Verif.Clean

open TM

variable {V B : Type} [DecidableEq V] [Fintype V]

/-- What the SConscript files say that matters to `-c`. -/
structure Marks (V : Type) where
  /-- `has_builder() or side_effect` (`Main.py:396`) -/
  built : V → Bool
  /-- `NoClean()` (`Environment.py:2669`) -/
  noclean : V → Bool
  /-- `CleanTargets`: what `Clean()` attached to a node (`Environment.py:2556-2573`) -/
  extra : V → List V
  /-- not a property of the description: `os.unlink` raises `OSError` for this file -/
  stuck : V → Prop

/-- `self.targets[0]` of the task of `n`: the first target of its executor. -/
def lead (C : Cfg V) (n : V) : V := (C.targets n).headD n

/-- `_get_files_to_clean` and `_clean_targets` (`Main.py:393-406`): the files `remove()` tries to remove, in order. -/
def toRemove (C : Cfg V) (K : Marks V) (n : V) : List V :=
  (if K.built (lead C n) then (C.targets n).filter (fun t => !K.noclean t) else []) ++ K.extra (lead C n)

/-- State of a `scons -c` run. -/
structure St (V B : Type) where
  T : TM.St V
  fs : V → Option B
  /-- what an outstanding task has still to remove -/
  todo : V → List V
  /-- dependencies found by the first scan (`Node.implicit`, never reset by `executed_without_callbacks`) -/
  memo : V → Option (List V)

/-- Start: `Taskmaster.__init__`. -/
def St.init (orig : List V) (fs : V → Option B) : St V B := ⟨TM.St.init orig, fs, fun _ => [], fun _ => none⟩

/-- What `get_all_children()` answers for `n`; `sees fs n`: what the scanners find when the files are `fs`. -/
def St.kids (sees : (V → Option B) → V → List V) (X : St V B) (n : V) : List V := (X.memo n).getD (sees X.fs n)

/-- The scan of `n`'s executor is kept, unless `n` was evaluated before and is not scanned. -/
def St.scanned (C : Cfg V) (sees : (V → Option B) → V → List V) (X : St V B) (n : V) : V → Option (List V) :=
  if 1 < (X.T.state n).rank then X.memo else updOn X.memo (· ∈ C.targets n) (some (X.kids sees n))

/-- One step of `scons -c`; `Alt`: the nodes `alter_targets()` may name. -/
inductive Step (C : Cfg V) (K : Marks V) (sees : (V → Option B) → V → List V) (Alt : V → Prop) : St V B → St V B → Prop
  /-- a node is looked at and is not ready -/
  | look {X : St V B} {alt pushed post n T1 T'} : (∀ a ∈ alt, Alt a) → nextCandidate X.T alt = some (T1, n) →
      TM.step C X.T (.consider alt (.ok (X.kids sees n)) pushed .start post) = some T' → returned C X.T alt (.ok (X.kids sees n)) pushed = none →
      Step C K sees Alt X ⟨T', X.fs, X.todo, X.scanned C sees n⟩
  /-- a node is ready: its task is handed out (`make_ready_all`, `Taskmaster/__init__.py:369-385`) -/
  | hand {X : St V B} {alt pushed post n T'} : (∀ a ∈ alt, Alt a) →
      TM.step C X.T (.consider alt (.ok (X.kids sees n)) pushed .start post) = some T' → returned C X.T alt (.ok (X.kids sees n)) pushed = some n →
      Step C K sees Alt X ⟨T', X.fs, upd X.todo n (toRemove C K n), X.scanned C sees n⟩
  /-- a job removes the next file of its task (`Main.py:414-430`); `File.remove`, `FS.py:3182` -/
  | rm {X : St V B} {n f rest} : n ∈ X.T.active → X.todo n = f :: rest → ¬ K.stuck f →
      Step C K sees Alt X ⟨X.T, upd X.fs f none, upd X.todo n rest, X.memo⟩
  /-- … or fails to, says so, and goes on -/
  | keep {X : St V B} {n f rest} : n ∈ X.T.active → X.todo n = f :: rest → K.stuck f →
      Step C K sees Alt X ⟨X.T, X.fs, upd X.todo n rest, X.memo⟩
  /-- `executed_without_callbacks`, `postprocess` -/
  | done {X : St V B} {n post T'} : X.todo n = [] → TM.step C X.T (.finish n none post) = some T' → Step C K sees Alt X ⟨T', X.fs, X.todo, X.memo⟩
  /-- Control-C -/
  | interrupt {X : St V B} {T'} : TM.step C X.T .interrupt = some T' → Step C K sees Alt X ⟨T', X.fs, X.todo, X.memo⟩
  | flush {X : St V B} {T'} : TM.step C X.T .flush = some T' → Step C K sees Alt X ⟨T', X.fs, X.todo, X.memo⟩

/-- Runs. -/
inductive Steps (C : Cfg V) (K : Marks V) (sees : (V → Option B) → V → List V) (Alt : V → Prop) : St V B → St V B → Prop
  | refl (X) : Steps C K sees Alt X X
  | tail {X X' X''} : Steps C K sees Alt X X' → Step C K sees Alt X' X'' → Steps C K sees Alt X X''

/-- The dependency graph fits: executors are shared consistently, and side-effect files are not depended upon. -/
structure Fits (C : Cfg V) (sees : (V → Option B) → V → List V) (Alt : V → Prop) (orig : List V) : Prop where
  project : Project C orig
  pre : ∀ n, ∀ m ∈ C.targets n, C.prereqs m = C.prereqs n
  peers : ∀ fs n, ∀ m ∈ C.targets n, sees fs m = sees fs n
  noSE : ∀ fs n, ∀ x ∈ sees fs n, ¬ C.isSE x
  altSE : ∀ x, Alt x → ¬ C.isSE x

/-- Labels of `-c` runs. -/
def Lab' (C : Cfg V) (Alt : V → Prop) (S : TM.St V) (l : Lab V) : Prop := StableLab C S l ∧ AltLab C Alt S l

theorem lead_peer {C : Cfg V} (hC : C.WF) {n m : V} (h : m ∈ C.targets n) : lead C m = lead C n := by
  unfold lead
  rw [hC.peers n m h]
  cases e : C.targets n with
  | nil => rw [e] at h; cases h
  | cons => rfl

theorem toRemove_peer {C : Cfg V} (hC : C.WF) {K : Marks V} {n m : V} (h : m ∈ C.targets n) : toRemove C K m = toRemove C K n := by
  unfold toRemove; rw [lead_peer hC h, hC.peers n m h]

/-- What is true at every moment of a run begun with the files `fs0`. -/
structure Inv (C : Cfg V) (K : Marks V) (Alt : V → Prop) (orig : List V) (fs0 : V → Option B) (X : St V B) : Prop where
  tm : Reach C (Lab' C Alt) orig X.T
  fresh : ∀ n, X.memo n = none → X.T.seen n = ∅
  memo : ∀ n k, X.memo n = some k → X.T.seen n = (C.prereqs n ++ k).toFinset
  noSE : ∀ n k, X.memo n = some k → ∀ x ∈ k, ¬ C.isSE x
  peer : ∀ n, ∀ m ∈ C.targets n, X.memo m = X.memo n
  started : ∀ x, ¬ C.isSE x → X.T.state x = .executing ∨ (X.T.state x).done → x ∈ X.T.started
  scanned : ∀ x ∈ X.T.started, X.memo x ≠ none
  todo : ∀ n ∈ X.T.active, ∀ f ∈ X.todo n, f ∈ toRemove C K n
  gone : ∀ x ∈ X.T.started, ∀ f ∈ toRemove C K x, X.fs f = none ∨ K.stuck f ∨ ∃ n ∈ X.T.active, f ∈ X.todo n
  only : ∀ f, X.fs f = fs0 f ∨ (X.fs f = none ∧ ¬ K.stuck f ∧ ∃ x ∈ X.T.started, f ∈ toRemove C K x)

/-! ## The walk -/

theorem postprocess_state {C : Cfg V} {S S' : TM.St V} {ts post : List V} (h : postprocess C S ts post = some S') {x : V} (hx : ¬ C.isSE x) :
    S'.state x = S.state x := by
  unfold postprocess at h
  simp only at h
  split at h
  case isFalse => cases h
  simp only [Option.some.injEq] at h
  rw [← h]
  simp only [updOn_apply, List.mem_toFinset]
  rw [if_neg]
  rintro ⟨h1, -⟩
  exact hx (isSE_of_ses h1)

theorem considerNode_started {C : Cfg V} {S S' : TM.St V} {n : V} {scan : Scan V} {pushed : List V} {o : Outcome}
    (hcn : considerNode C S n scan pushed = some (S', o)) : S'.started = S.started := by
  unfold considerNode at hcn
  split at hcn
  · simp only [Option.some.injEq, Prod.mk.injEq] at hcn; rw [← hcn.1]
  · split at hcn
    · simp only [Option.some.injEq, Prod.mk.injEq] at hcn; rw [← hcn.1]; rfl
    simp only at hcn
    split at hcn
    · simp only [Option.some.injEq] at hcn
      have h3 := congrArg Prod.fst hcn
      simp only at h3
      rw [← h3]
      unfold judge
      split
      · rfl
      · simp only; split
        · exact (addWaiting_fields n _ _).2.2.2.2.2.2.2.2.1
        · split <;> rfl
    · cases hcn

/-- A node that is being or has been handled was handed out. -/
def AllStarted (C : Cfg V) (S : TM.St V) : Prop := ∀ x, ¬ C.isSE x → S.state x = .executing ∨ (S.state x).done → x ∈ S.started

theorem AllStarted.consider {C : Cfg V} {S S' : TM.St V} {alt pushed post kids : List V} (h : AllStarted C S)
    (hs : TM.step C S (.consider alt (.ok kids) pushed .start post) = some S') : AllStarted C S' := by
  simp only [TM.step] at hs
  split at hs
  · cases hs
  split at hs
  · cases hs
  rename_i S1 n hnc
  obtain ⟨g1, -, g3, -⟩ := nextCandidate_fields hnc
  have key : ∀ {S2 : TM.St V} {o : Outcome}, considerNode C S1 n (.ok kids) pushed = some (S2, o) → AllStarted C S2 := by
    intro S2 o hcn x hx hst
    have hs2 : S2.started = S1.started := considerNode_started hcn
    rw [hs2, g3]
    rcases (considerNode_state hcn).2 x with e | e | ⟨rfl, e⟩
    · rw [e, g1] at hst; exact h x hx hst
    · rw [e] at hst; simp [NState.done] at hst
    · exfalso
      have : S2.state x = .pending ∨ S2.state x = .failed := by
        unfold considerNode at hcn
        split at hcn
        · omega
        · simp only at hcn
          split at hcn
          · simp only [Option.some.injEq] at hcn
            have h3 := congrArg Prod.fst hcn
            simp only at h3
            rw [← h3]
            rcases (judge_state (C := C) (S := pushKids C (markPending S1 x) x (C.prereqs x ++ kids) pushed) (n := x) (all := C.prereqs x ++ kids)).2 x with h2 | h2
            · left; rw [h2]; simp [pushKids, markPending, upd]
            · right; exact h2
          · cases hcn
      rcases this with e1 | e1 <;> rw [e1] at hst <;> simp [NState.done] at hst
  split at hs
  · cases hs
  · rename_i S2 hcn
    simp only [Option.some.injEq] at hs
    subst hs
    exact fun x hx hst => key hcn x hx hst
  · cases hs
  · rename_i S2 hcn
    simp only [handOut, Option.map_some, Option.some.injEq] at hs
    subst hs
    intro x hx hst
    simp only [makeReady, if_true, updOn_apply] at hst ⊢
    split at hst
    · rename_i hm
      rcases hm with hm | hm
      · simp [hm]
      · exact absurd (isSE_of_ses hm) hx
    · exact List.mem_append_right _ (key hcn x hx hst)

theorem AllStarted.finish {C : Cfg V} {S S' : TM.St V} {n : V} {post : List V} (h : AllStarted C S)
    (hs : TM.step C S (.finish n none post) = some S') : AllStarted C S' := by
  simp only [TM.step] at hs
  split at hs
  case isFalse => cases hs
  intro x hx hst
  rw [(postprocess_failedTasks hs).2.1]
  rw [postprocess_state hs hx, executed_state_nse hx] at hst
  apply h x hx
  split at hst
  · rename_i e; exact Or.inl e.2
  · exact hst

theorem AllStarted.rest {C : Cfg V} {S S' : TM.St V} (h : AllStarted C S) (hs : TM.step C S .interrupt = some S' ∨ TM.step C S .flush = some S') : AllStarted C S' := by
  rcases hs with hs | hs
  · simp only [TM.step, Option.some.injEq] at hs; subst hs; exact h
  · simp only [TM.step] at hs
    split at hs
    case isFalse => cases hs
    simp only [Option.some.injEq] at hs
    subst hs
    exact h

/-! ## The invariant -/

theorem Inv.init {C : Cfg V} {K : Marks V} {Alt : V → Prop} {orig : List V} {fs0 : V → Option B} : Inv C K Alt orig fs0 (St.init orig fs0) where
  tm := .refl _
  fresh := fun _ _ => rfl
  memo := fun n k h => (by cases h)
  noSE := fun n k h => (by cases h)
  peer := fun _ _ _ => rfl
  started := fun x _ h => (by rcases h with h | h <;> simp [St.init, TM.St.init, NState.done] at h)
  scanned := fun x h => (by cases h)
  todo := fun n h => (by cases h)
  gone := fun x h => (by cases h)
  only := fun f => Or.inl rfl

/-- What `get_all_children()` answers includes what it answered before. -/
theorem Inv.grows {C : Cfg V} {K : Marks V} {sees : (V → Option B) → V → List V} {Alt : V → Prop} {orig : List V} {fs0 : V → Option B} {X : St V B}
    (h : Inv C K Alt orig fs0 X) (n : V) : ∀ c ∈ X.T.seen n, c ∈ C.prereqs n ++ X.kids sees n := by
  intro c hc
  unfold St.kids
  cases hm : X.memo n with
  | none => rw [h.fresh n hm] at hc; simp at hc
  | some k => rw [h.memo n k hm] at hc; simpa using hc

theorem Inv.kidsSE {C : Cfg V} {K : Marks V} {sees : (V → Option B) → V → List V} {Alt : V → Prop} {orig : List V} (hF : Fits C sees Alt orig)
    {fs0 : V → Option B} {X : St V B} (h : Inv C K Alt orig fs0 X) (n : V) : ∀ x ∈ X.kids sees n, ¬ C.isSE x := by
  unfold St.kids
  cases hm : X.memo n with
  | none => exact hF.noSE _ _
  | some k => exact h.noSE n k hm

/-- The label of looking at a node. -/
theorem Inv.label {C : Cfg V} {K : Marks V} {sees : (V → Option B) → V → List V} {Alt : V → Prop} {orig : List V} (hF : Fits C sees Alt orig)
    {fs0 : V → Option B} {X : St V B} (h : Inv C K Alt orig fs0 X) {alt pushed post : List V} {n : V} {T1 : TM.St V} (ha : ∀ a ∈ alt, Alt a)
    (hnc : nextCandidate X.T alt = some (T1, n)) : Lab' C Alt X.T (.consider alt (.ok (X.kids sees n)) pushed .start post) := by
  have h1 : (Lab.consider alt (.ok (X.kids sees n)) pushed .start post : Lab V).noSE C :=
    ⟨fun x hx => hF.altSE x (ha x hx), fun kids e x hx => by cases e; exact h.kidsSE hF n x hx⟩
  refine ⟨⟨h1, ?_⟩, h1, fun alt' scan' pushed' fate' post' e => by cases e; exact ha⟩
  intro S1 m kids hm e
  rw [hnc] at hm
  cases hm
  cases e
  exact h.grows n

/-- What the record of dependencies and the memory of scans become. -/
theorem Inv.looked {C : Cfg V} {K : Marks V} {sees : (V → Option B) → V → List V} {Alt : V → Prop} {orig : List V} (hF : Fits C sees Alt orig)
    {fs0 : V → Option B} {X : St V B} (h : Inv C K Alt orig fs0 X) {alt pushed post : List V} {n : V} {T1 T' : TM.St V}
    (hnc : nextCandidate X.T alt = some (T1, n)) (hs : TM.step C X.T (.consider alt (.ok (X.kids sees n)) pushed .start post) = some T') :
    (∀ m, X.scanned C sees n m = none → T'.seen m = ∅) ∧ (∀ m k, X.scanned C sees n m = some k → T'.seen m = (C.prereqs m ++ k).toFinset) ∧
      (∀ m k, X.scanned C sees n m = some k → ∀ x ∈ k, ¬ C.isSE x) ∧ (∀ p, ∀ m ∈ C.targets p, X.scanned C sees n m = X.scanned C sees n p) := by
  obtain ⟨hst, -, -, hsn, -⟩ := nextCandidate_fields hnc
  unfold St.scanned
  by_cases hr : 1 < (X.T.state n).rank
  · have hcn : considerNode C T1 n (.ok (X.kids sees n)) pushed = some (T1, .skip) := by
      unfold considerNode; rw [if_pos]; rw [hst]; exact hr
    simp only [TM.step, hnc, hcn] at hs
    split at hs
    · cases hs
    simp only [Option.some.injEq] at hs
    rw [if_pos hr, ← hs]
    simp only [hsn]
    exact ⟨h.fresh, h.memo, h.noSE, h.peer⟩
  · rw [if_neg hr]
    rcases step_seen hs with ⟨-, e2⟩ | ⟨alt', kids', pushed', fate', post', S1, n', e, hnc', e1⟩
    · have := e2 _ _ _ _ _ T1 n rfl hnc
      rw [hst] at this; exact absurd this hr
    · cases e
      rw [hnc] at hnc'
      cases hnc'
      have hseen : X.T.seen n ∪ (C.prereqs n ++ X.kids sees n).toFinset = (C.prereqs n ++ X.kids sees n).toFinset :=
        Finset.union_eq_right.2 fun c hc => List.mem_toFinset.2 (h.grows n c hc)
      rw [hseen] at e1
      rw [e1]
      refine ⟨fun m hm => ?_, fun m k hm => ?_, fun m k hm => ?_, fun p m hp => ?_⟩
      · simp only [updOn_apply] at hm ⊢
        split at hm
        · cases hm
        · rename_i hne
          rw [if_neg hne]; exact h.fresh m hm
      · simp only [updOn_apply] at hm ⊢
        split at hm
        · rename_i hne
          cases hm
          rw [if_pos hne, hF.pre n m hne]
        · rename_i hne
          rw [if_neg hne]; exact h.memo m k hm
      · simp only [updOn_apply] at hm
        split at hm
        · cases hm; exact h.kidsSE hF n
        · exact h.noSE m k hm
      · simp only [updOn_apply]
        have : m ∈ C.targets n ↔ p ∈ C.targets n := by
          have hw := hF.project.wf
          constructor
          · intro hm
            rw [← hw.peers n m hm, hw.peers p m hp]; exact hw.self p
          · intro hm
            rw [← hw.peers n p hm]; exact hp
        simp only [this]
        split
        · rfl
        · exact h.peer p m hp

theorem handed {C : Cfg V} {S S' : TM.St V} {alt pushed post : List V} {scan : Scan V} {n : V} (hr : returned C S alt scan pushed = some n)
    (hs : TM.step C S (.consider alt scan pushed .start post) = some S') : S'.active = n :: S.active ∧ S'.started = C.targets n ++ S.started := by
  unfold returned at hr
  simp only [TM.step] at hs
  split at hr
  · cases hr
  rename_i hst
  rw [if_neg hst] at hs
  split at hr
  · cases hr
  rename_i S1 k hnc
  simp only [hnc] at hs
  obtain ⟨-, -, g3, -, -, -, -, -, -, g10, -⟩ := nextCandidate_fields hnc
  split at hr
  · rename_i S2 hcn
    simp only [Option.some.injEq] at hr; subst hr
    simp only [hcn, handOut, Option.map_some, Option.some.injEq] at hs
    have ha := (considerNode_state hcn).1
    have hb : S2.started = S1.started := considerNode_started hcn
    rw [← hs]
    simp [makeReady, ha, hb, g3, g10]
  · cases hr

theorem scanned_ne {C : Cfg V} {sees : (V → Option B) → V → List V} {X : St V B} {n x : V} (h : X.memo x ≠ none) : X.scanned C sees n x ≠ none := by
  unfold St.scanned
  split
  · exact h
  · simp only [updOn_apply]
    split
    · simp
    · exact h

theorem Inv.step {C : Cfg V} {K : Marks V} {sees : (V → Option B) → V → List V} {Alt : V → Prop} {orig : List V} (hF : Fits C sees Alt orig)
    {fs0 : V → Option B} {X X' : St V B} (h : Inv C K Alt orig fs0 X) (hs : Step C K sees Alt X X') : Inv C K Alt orig fs0 X' := by
  have hw := hF.project.wf
  have hTI := Reach.inv hF.project (fun _ _ (h : Lab' C Alt _ _) => h.1.1) h.tm
  cases hs with
  | @look alt pushed post n T1 T' ha hnc h1 hr =>
    obtain ⟨a1, a2, a3, a4⟩ := h.looked hF hnc h1
    obtain ⟨e1, e2⟩ := consider_idle (fun x _ => by rw [hr]; simp) h1
    refine ⟨.tail _ h.tm (h.label hF ha hnc) h1, a1, a2, a3, a4, AllStarted.consider h.started h1, ?_, ?_, ?_, ?_⟩
    · simp only [e2]; exact fun x hx => scanned_ne (h.scanned x hx)
    · simp only [e1]; exact h.todo
    · simp only [e1, e2]; exact h.gone
    · simp only [e2]; exact h.only
  | @hand alt pushed post n T' ha h1 hr =>
    obtain ⟨-, -, T1, hnc⟩ := Build.returned_facts hr
    obtain ⟨a1, a2, a3, a4⟩ := h.looked hF hnc h1
    obtain ⟨e1, e2⟩ : T'.active = n :: X.T.active ∧ T'.started = C.targets n ++ X.T.started := handed hr h1
    have hnew : n ∉ X.T.active := by
      intro hn
      have := hTI.started n (hTI.startedRest.act n hn n (hw.self n))
      have := (Build.returned_facts hr).2.1
      omega
    refine ⟨.tail _ h.tm (h.label hF ha hnc) h1, a1, a2, a3, a4, AllStarted.consider h.started h1, ?_, ?_, ?_, ?_⟩
    · simp only [e2]
      intro x hx
      rcases List.mem_append.1 hx with hx | hx
      · unfold St.scanned
        rw [if_neg (by have := (Build.returned_facts hr).2.1; omega)]
        simp [updOn_apply, hx]
      · exact scanned_ne (h.scanned x hx)
    · simp only [e1]
      intro m hm f hf
      simp only [upd] at hf
      split at hf
      · rename_i e; rw [e]; exact hf
      · rename_i e
        exact h.todo m (by simpa [e] using hm) f hf
    · simp only [e1, e2]
      intro x hx f hf
      rcases List.mem_append.1 hx with hx | hx
      · right; right
        refine ⟨n, by simp, ?_⟩
        simp only [upd, if_true]
        rw [← toRemove_peer hw hx]; exact hf
      · rcases h.gone x hx f hf with g | g | ⟨m, hm, g⟩
        · exact Or.inl g
        · exact Or.inr (Or.inl g)
        · right; right
          refine ⟨m, by simp [hm], ?_⟩
          simp only [upd]
          rw [if_neg (by rintro rfl; exact hnew hm)]
          exact g
    · simp only [e2]
      intro f
      rcases h.only f with g | ⟨g1, g2, x, hx, g3⟩
      · exact Or.inl g
      · exact Or.inr ⟨g1, g2, x, List.mem_append_right _ hx, g3⟩
  | @rm n f rest ha ht hk =>
    have hf : f ∈ toRemove C K n := h.todo n ha f (by rw [ht]; simp)
    refine ⟨h.tm, h.fresh, h.memo, h.noSE, h.peer, h.started, h.scanned, ?_, ?_, ?_⟩
    · intro m hm g hg
      simp only [upd] at hg
      split at hg
      · rename_i e; subst e
        exact h.todo m hm g (by rw [ht]; simp [hg])
      · exact h.todo m hm g hg
    · intro x hx g hg
      simp only [upd]
      by_cases e : g = f
      · left; simp [e]
      · rw [if_neg e]
        rcases h.gone x hx g hg with a | a | ⟨m, hm, a⟩
        · exact Or.inl a
        · exact Or.inr (Or.inl a)
        · right; right
          refine ⟨m, hm, ?_⟩
          split
          · rename_i e'; subst e'
            rw [ht] at a
            simpa [e] using a
          · exact a
    · intro g
      simp only [upd]
      split
      · rename_i e; subst e
        exact Or.inr ⟨rfl, hk, n, hTI.startedRest.act n ha n (hw.self n), hf⟩
      · exact h.only g
  | @keep n f rest ha ht hk =>
    refine ⟨h.tm, h.fresh, h.memo, h.noSE, h.peer, h.started, h.scanned, ?_, ?_, h.only⟩
    · intro m hm g hg
      simp only [upd] at hg
      split at hg
      · rename_i e; subst e
        exact h.todo m hm g (by rw [ht]; simp [hg])
      · exact h.todo m hm g hg
    · intro x hx g hg
      by_cases e : g = f
      · right; left; rw [e]; exact hk
      · rcases h.gone x hx g hg with a | a | ⟨m, hm, a⟩
        · exact Or.inl a
        · exact Or.inr (Or.inl a)
        · right; right
          refine ⟨m, hm, ?_⟩
          simp only [upd]
          split
          · rename_i e'; subst e'
            rw [ht] at a
            simpa [e] using a
          · exact a
  | @done n post T' ht h1 =>
    have hmem : n ∈ X.T.active := by
      simp only [TM.step] at h1
      split at h1
      · assumption
      · cases h1
    have hsub : T'.active = X.T.active.erase n ∧ T'.started = X.T.started ∧ T'.seen = X.T.seen := by
      simp only [TM.step, if_pos hmem] at h1
      obtain ⟨-, b, c, d, -⟩ := postprocess_failedTasks h1
      exact ⟨c, b, d⟩
    obtain ⟨e1, e2, e3⟩ := hsub
    refine ⟨.tail (.finish n none post) h.tm ⟨⟨trivial, trivial⟩, trivial, fun _ _ _ _ _ e => by cases e⟩ h1, ?_, ?_, h.noSE, h.peer, AllStarted.finish h.started h1, (by simp only [e2]; exact h.scanned), ?_, ?_, ?_⟩
    · simp only [e3]; exact h.fresh
    · simp only [e3]; exact h.memo
    · simp only [e1]; exact fun m hm => h.todo m (List.mem_of_mem_erase hm)
    · simp only [e1, e2]
      intro x hx f hf
      rcases h.gone x hx f hf with g | g | ⟨m, hm, g⟩
      · exact Or.inl g
      · exact Or.inr (Or.inl g)
      · right; right
        refine ⟨m, (List.mem_erase_of_ne ?_).2 hm, g⟩
        rintro rfl
        rw [ht] at g; cases g
    · simp only [e2]; exact h.only
  | @interrupt T' h1 =>
    have hsub : T'.active = X.T.active ∧ T'.started = X.T.started ∧ T'.seen = X.T.seen := by
      simp only [TM.step, Option.some.injEq] at h1; subst h1; exact ⟨rfl, rfl, rfl⟩
    obtain ⟨e1, e2, e3⟩ := hsub
    refine ⟨.tail .interrupt h.tm ⟨⟨trivial, trivial⟩, trivial, fun _ _ _ _ _ e => by cases e⟩ h1, ?_, ?_, h.noSE, h.peer, AllStarted.rest h.started (Or.inl h1), (by simp only [e2]; exact h.scanned), ?_, ?_, ?_⟩
    · simp only [e3]; exact h.fresh
    · simp only [e3]; exact h.memo
    · simp only [e1]; exact h.todo
    · simp only [e1, e2]; exact h.gone
    · simp only [e2]; exact h.only
  | @flush T' h1 =>
    have hsub : T'.active = X.T.active ∧ T'.started = X.T.started ∧ T'.seen = X.T.seen := by
      simp only [TM.step] at h1
      split at h1
      case isFalse => cases h1
      simp only [Option.some.injEq] at h1; subst h1; exact ⟨rfl, rfl, rfl⟩
    obtain ⟨e1, e2, e3⟩ := hsub
    refine ⟨.tail .flush h.tm ⟨⟨trivial, trivial⟩, trivial, fun _ _ _ _ _ e => by cases e⟩ h1, ?_, ?_, h.noSE, h.peer, AllStarted.rest h.started (Or.inr h1), (by simp only [e2]; exact h.scanned), ?_, ?_, ?_⟩
    · simp only [e3]; exact h.fresh
    · simp only [e3]; exact h.memo
    · simp only [e1]; exact h.todo
    · simp only [e1, e2]; exact h.gone
    · simp only [e2]; exact h.only

theorem Steps.inv {C : Cfg V} {K : Marks V} {sees : (V → Option B) → V → List V} {Alt : V → Prop} {orig : List V} (hF : Fits C sees Alt orig)
    {fs0 : V → Option B} {X : St V B} (h : Steps C K sees Alt (St.init orig fs0) X) : Inv C K Alt orig fs0 X := by
  induction h with
  | refl => exact Inv.init
  | tail _ hs ih => exact ih.step hF hs

/-! ## C58 -/

/-- **C58, `scons -c` removes nothing else.**  At every moment of a run of `scons -c` for the targets `orig`, a file that is not what it was when the run began has been removed, and
it is a target with a builder, not marked by `NoClean()`, or was named in a call of `Clean()`; and the walk for `orig` led to it, or to the node `Clean()` attached it to. -/
theorem C58_clean_removes_nothing_else {C : Cfg V} {K : Marks V} {sees : (V → Option B) → V → List V} {Alt : V → Prop} {orig : List V} (hF : Fits C sees Alt orig)
    (hB : ∀ n, ∀ m ∈ C.targets n, K.built m = K.built n) {fs0 : V → Option B} {X : St V B} (h : Steps C K sees Alt (St.init orig fs0) X) {f : V} (hf : X.fs f ≠ fs0 f) :
    X.fs f = none ∧ ((K.built f = true ∧ K.noclean f = false ∧ Wanted C Alt orig X.T f) ∨ ∃ n, Wanted C Alt orig X.T n ∧ f ∈ K.extra n) := by
  have hI := h.inv hF
  have hw := hF.project.wf
  rcases hI.only f with e | ⟨e, -, x, hx, hr⟩
  · exact absurd e hf
  refine ⟨e, ?_⟩
  have hW := (C48_only_what_was_asked_for hF.project (TM.Steps.mono (fun _ _ h => h.2) hI.tm)).1 x hx
  have hlead : lead C x ∈ C.targets x := by
    unfold lead
    have := hw.self x
    cases e : C.targets x with
    | nil => rw [e] at this; cases this
    | cons => simp
  rcases List.mem_append.1 hr with hr | hr
  · left
    split at hr
    · rename_i hb
      simp only [List.mem_filter, Bool.not_eq_true'] at hr
      refine ⟨?_, hr.2, .tgt hW hr.1⟩
      rw [hB x f hr.1, ← hB x _ hlead]; exact hb
    · cases hr
  · exact Or.inr ⟨_, .tgt hW hlead, hr⟩

/-- A source file is never removed unless it was named in a call of `Clean()`. -/
theorem C58_sources_are_safe {C : Cfg V} {K : Marks V} {sees : (V → Option B) → V → List V} {Alt : V → Prop} {orig : List V} (hF : Fits C sees Alt orig)
    (hB : ∀ n, ∀ m ∈ C.targets n, K.built m = K.built n) {fs0 : V → Option B} {X : St V B} (h : Steps C K sees Alt (St.init orig fs0) X) {f : V} (hb : K.built f = false)
    (hc : ∀ n, f ∉ K.extra n) : X.fs f = fs0 f := by
  by_contra hne
  obtain ⟨-, ⟨h1, -⟩ | ⟨n, -, h1⟩⟩ := C58_clean_removes_nothing_else hF hB h hne
  · rw [hb] at h1; cases h1
  · exact hc n h1

/-- **C58, counterexample** to "files attached with `Clean()` to a target are removed with it": what was attached only to targets that are not the first target of their action is never removed,
in no run for any targets. -/
theorem C58_secondary_target_counterexample {C : Cfg V} {K : Marks V} {sees : (V → Option B) → V → List V} {Alt : V → Prop} {orig : List V} (hF : Fits C sees Alt orig)
    (hB : ∀ n, ∀ m ∈ C.targets n, K.built m = K.built n) {fs0 : V → Option B} {X : St V B} (h : Steps C K sees Alt (St.init orig fs0) X) {f : V} (hb : K.built f = false)
    (hc : ∀ n, f ∈ K.extra n → ∀ m, (C.targets m).head? ≠ some n) : X.fs f = fs0 f := by
  rcases (h.inv hF).only f with e | ⟨-, -, x, -, hr⟩
  · exact e
  exfalso
  have hlead : lead C x ∈ C.targets x ∧ (C.targets x).head? = some (lead C x) := by
    unfold lead
    have := hF.project.wf.self x
    cases e : C.targets x with
    | nil => rw [e] at this; cases this
    | cons => simp
  rcases List.mem_append.1 hr with hr | hr
  · split at hr
    · rename_i hb'
      simp only [List.mem_filter] at hr
      rw [hB x _ hlead.1, ← hB x f hr.1, hb] at hb'; cases hb'
    · cases hr
  · exact hc _ hr x hlead.2

/-- When a run is over and reports no cycle, a task was handed out for every requested target and for everything the scans of these found. -/
theorem over_started {C : Cfg V} {K : Marks V} {sees : (V → Option B) → V → List V} {Alt : V → Prop} {orig : List V} (hF : Fits C sees Alt orig)
    {fs0 : V → Option B} {X : St V B} (hI : Inv C K Alt orig fs0 X) (hover : X.T.over) (hns : X.T.stopped = false) (hok : X.T.failedTasks = ∅)
    {foundCycle : V → Bool} (hcl : ¬ cleanupRaises X.T foundCycle) {t x : V} (ht : t ∈ orig) (hx : Relation.ReflTransGen (DependsOn X.T) t x) : x ∈ X.T.started := by
  have hTI := Reach.inv hF.project (fun _ _ (h : Lab' C Alt _ _) => h.1.1) hI.tm
  have hst : Reach C (StableLab C) orig X.T := TM.Steps.mono (fun _ _ h => h.1) hI.tm
  induction hx with
  | refl =>
    apply hI.started t (hF.project.top t ht)
    right
    by_contra hnd
    exact hcl (C06_unbuilt_target_is_reported hF.project (TM.Steps.mono (fun _ _ h => h.1.1) hI.tm) hover hns foundCycle ht hnd
      (by rintro ⟨f, hf, _⟩; rw [hok] at hf; simp at hf))
  | @tail b c _ h1 ih =>
    exact hI.started c (hTI.seenSE b c h1) (Or.inr (C01_dependencies_of_started_are_finished hF.project hst ih h1))

theorem consider_start_failedTasks {C : Cfg V} {S S' : TM.St V} {alt kids pushed post : List V}
    (hs : TM.step C S (.consider alt (.ok kids) pushed .start post) = some S') : S'.failedTasks = S.failedTasks := by
  simp only [TM.step] at hs
  split at hs
  · cases hs
  split at hs
  · cases hs
  rename_i S1 n hnc
  have g4 := (nextCandidate_fields hnc).2.2.2.2.1
  split at hs
  · cases hs
  · rename_i S2 hcn
    simp only [Option.some.injEq] at hs
    subst hs
    exact (considerNode_misc hcn).1.trans g4
  · cases hs
  · rename_i S2 hcn
    simp only [handOut, Option.map_some, Option.some.injEq] at hs
    subst hs
    exact (considerNode_misc hcn).1.trans g4

theorem Steps.noFailure {C : Cfg V} {K : Marks V} {sees : (V → Option B) → V → List V} {Alt : V → Prop} {X0 X : St V B} (h : Steps C K sees Alt X0 X) :
    X.T.failedTasks = X0.T.failedTasks := by
  induction h with
  | refl => rfl
  | tail _ hs ih =>
    rw [← ih]
    cases hs with
    | look _ _ h1 _ => exact consider_start_failedTasks h1
    | hand _ h1 _ => exact consider_start_failedTasks h1
    | rm => rfl
    | keep => rfl
    | done _ h1 =>
      simp only [TM.step] at h1
      split at h1
      case isFalse => cases h1
      exact (postprocess_failedTasks h1).1
    | interrupt h1 => simp only [TM.step, Option.some.injEq] at h1; subst h1; rfl
    | flush h1 =>
      simp only [TM.step] at h1
      split at h1
      case isFalse => cases h1
      simp only [Option.some.injEq] at h1; subst h1; rfl

/-- **C58, what `scons -c` reaches it removes.**  When a run of `scons -c` for `orig` ends normally, every requested target, and everything that the scans of these found to be a dependency,
directly or not, is gone, with what `Clean()` attached to it — unless `NoClean()` protects it or `os.unlink` fails. -/
theorem C58_clean_removes_what_it_reaches {C : Cfg V} {K : Marks V} {sees : (V → Option B) → V → List V} {Alt : V → Prop} {orig : List V} (hF : Fits C sees Alt orig)
    (hB : ∀ n, ∀ m ∈ C.targets n, K.built m = K.built n) {fs0 : V → Option B} {X : St V B} (h : Steps C K sees Alt (St.init orig fs0) X) (hover : X.T.over)
    (hns : X.T.stopped = false) {foundCycle : V → Bool} (hcl : ¬ cleanupRaises X.T foundCycle) {t x : V} (ht : t ∈ orig)
    (hx : Relation.ReflTransGen (DependsOn X.T) t x) :
    (∀ m ∈ C.targets x, K.built m = true → K.noclean m = false → ¬ K.stuck m → X.fs m = none) ∧
      ∀ l, (C.targets x).head? = some l → ∀ f ∈ K.extra l, ¬ K.stuck f → X.fs f = none := by
  have hI := h.inv hF
  have hst := over_started hF hI hover hns h.noFailure hcl ht hx
  have hw := hF.project.wf
  have key : ∀ f ∈ toRemove C K x, ¬ K.stuck f → X.fs f = none := by
    intro f hf hk
    rcases hI.gone x hst f hf with e | e | ⟨n, hn, -⟩
    · exact e
    · exact absurd e hk
    · rw [hover.2.2] at hn; cases hn
  have hlead : lead C x ∈ C.targets x ∧ (C.targets x).head? = some (lead C x) := by
    unfold lead
    have := hw.self x
    cases e : C.targets x with
    | nil => rw [e] at this; cases this
    | cons => simp
  constructor
  · intro m hm hb hc hk
    apply key m _ hk
    unfold toRemove
    rw [if_pos]
    · simp [hm, hc]
    · rw [hB x _ hlead.1, ← hB x m hm]; exact hb
  · intro l hl f hf hk
    rw [hlead.2] at hl; cases hl
    exact key f (List.mem_append_right _ hf) hk

/-- What depends on what, when the files are `fs`: prerequisites and what the scanners find. -/
def Needs (C : Cfg V) (sees : (V → Option B) → V → List V) (fs : V → Option B) (a b : V) : Prop := b ∈ C.prereqs a ∨ b ∈ sees fs a

/-- What the scanners find does not change when files that `-c` can remove vanish. -/
def Steady (C : Cfg V) (K : Marks V) (sees : (V → Option B) → V → List V) (fs0 : V → Option B) : Prop :=
  ∀ fs : V → Option B, (∀ f, fs f = fs0 f ∨ (fs f = none ∧ ((K.built f = true ∧ K.noclean f = false) ∨ ∃ n, f ∈ K.extra n))) → ∀ n, sees fs n = sees fs0 n

theorem Steps.memo_steady {C : Cfg V} {K : Marks V} {sees : (V → Option B) → V → List V} {Alt : V → Prop} {orig : List V} (hF : Fits C sees Alt orig)
    (hB : ∀ n, ∀ m ∈ C.targets n, K.built m = K.built n) {fs0 : V → Option B} (hst : Steady C K sees fs0) {X : St V B} (h : Steps C K sees Alt (St.init orig fs0) X) :
    ∀ n k, X.memo n = some k → k = sees fs0 n := by
  induction h with
  | refl => intro n k hk; cases hk
  | @tail X1 X2 h1 hs ih =>
    have hkids : ∀ n, X1.kids sees n = sees fs0 n := by
      intro n
      unfold St.kids
      cases hm : X1.memo n with
      | some k => exact ih n k hm
      | none =>
        refine hst X1.fs (fun f => ?_) n
        by_cases e : X1.fs f = fs0 f
        · exact Or.inl e
        · obtain ⟨g1, ⟨g2, g3, -⟩ | ⟨m, -, g2⟩⟩ := C58_clean_removes_nothing_else hF hB h1 e
          · exact Or.inr ⟨g1, Or.inl ⟨g2, g3⟩⟩
          · exact Or.inr ⟨g1, Or.inr ⟨m, g2⟩⟩
    have hsc : ∀ n m k, X1.scanned C sees n m = some k → k = sees fs0 m := by
      intro n m k hk
      unfold St.scanned at hk
      split at hk
      · exact ih m k hk
      · simp only [updOn_apply] at hk
        split at hk
        · rename_i hm
          cases hk
          rw [hkids, hF.peers fs0 n m hm]
        · exact ih m k hk
    cases hs with
    | look _ _ _ _ => exact hsc _
    | hand _ _ _ => exact hsc _
    | rm => exact ih
    | keep => exact ih
    | done => exact ih
    | interrupt => exact ih
    | flush => exact ih

/-- **C58, `scons -c` removes everything** that is needed for the requested targets — if the scanners do not look into files that `-c` removes.  The graph is the one of the moment when the run
began; no assumption about the order of the walk, the number of jobs or cycles. -/
theorem C58_clean_removes_everything_partial {C : Cfg V} {K : Marks V} {sees : (V → Option B) → V → List V} {Alt : V → Prop} {orig : List V} (hF : Fits C sees Alt orig)
    (hB : ∀ n, ∀ m ∈ C.targets n, K.built m = K.built n) {fs0 : V → Option B} (hst : Steady C K sees fs0) {X : St V B}
    (h : Steps C K sees Alt (St.init orig fs0) X) (hover : X.T.over) (hns : X.T.stopped = false) {foundCycle : V → Bool} (hcl : ¬ cleanupRaises X.T foundCycle)
    {t x : V} (ht : t ∈ orig) (hx : Relation.ReflTransGen (Needs C sees fs0) t x) (hb : K.built x = true) (hc : K.noclean x = false) (hk : ¬ K.stuck x) : X.fs x = none := by
  have hI := h.inv hF
  have hmemo := h.memo_steady hF hB hst
  have hx' : x ∈ X.T.started ∧ Relation.ReflTransGen (DependsOn X.T) t x := by
    clear hb hc hk
    induction hx with
    | refl => exact ⟨over_started hF hI hover hns h.noFailure hcl ht .refl, .refl⟩
    | @tail b c _ h1 ih =>
      have hbm : X.memo b ≠ none := hI.scanned b ih.1
      obtain ⟨k, hk⟩ := Option.ne_none_iff_exists'.1 hbm
      have hdep : DependsOn X.T b c := by
        unfold TM.DependsOn
        rw [hI.memo b k hk, hmemo b k hk]
        simpa [Needs] using h1
      have := ih.2.tail hdep
      exact ⟨over_started hF hI hover hns h.noFailure hcl ht this, this⟩
  exact (C58_clean_removes_what_it_reaches hF hB h hover hns hcl ht hx'.2).1 x (hF.project.wf.self x) hb hc hk

end Verif.Clean
