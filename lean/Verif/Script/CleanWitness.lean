import Verif.Script.Clean
import Verif.Build.ComposeWitness

/-!
# C58: histories with `-c` in them, concrete runs, and the order of the targets

`scons -c a.c a.o` and `scons -c a.o a.c` do not remove the same files.
-/

namespace Verif.Clean

open TM

/-! ## A run of `-c` is an ordinary part of a history -/

/-- **C58.**  A run of `scons -c`, complete or interrupted, is for later builds nothing but the deletion of some files by hand: it can stand anywhere in a history of edits and builds. -/
theorem C58_clean_keeps_history {V B K A : Type} [DecidableEq V] [DecidableEq K] [Fintype V] {M : Build.Sem B K A} {D : Build.Desc V B A} {S : Build.St V B K A}
    {C : Cfg V} {W : Marks V} {sees : (V → Option B) → V → List V} {Alt : V → Prop} {orig : List V} {X : St V B} (hist : Build.Hist M D S) (hb : S.busy = false)
    (h : Steps C W sees Alt (St.init orig S.fs) X) : Build.Hist M D { S with fs := X.fs } := by
  suffices H : ∀ {X0 X : St V B}, Steps C W sees Alt X0 X → Build.Hist M D { S with fs := X0.fs } → Build.Hist M D { S with fs := X.fs } from
    H h hist
  intro X0 X h h0
  induction h with
  | refl => exact h0
  | tail _ hs ih =>
    cases hs with
    | look => exact ih
    | hand => exact ih
    | @rm n f rest _ _ _ =>
      refine .edit f none ih (Or.inl rfl) ?_
      exact Build.Step.edit _ f none hb
    | keep => exact ih
    | done => exact ih
    | interrupt => exact ih
    | flush => exact ih

/-- … so a successful build after it gives what a build from scratch gives. -/
theorem C58_clean_then_build {V B K A : Type} [DecidableEq V] [DecidableEq K] [Fintype V] {M : Build.Sem B K A} (hM : M.Faithful) {D : Build.Desc V B A} {S S1 : Build.St V B K A}
    {C C2 : Cfg V} {W : Marks V} {sees : (V → Option B) → V → List V} {Alt : V → Prop} {orig orig2 : List V} {X : St V B} {Y : Build.CSt V B K A} (hist : Build.Hist M D S)
    (hb : S.busy = false) (h : Steps C W sees Alt (St.init orig S.fs) X) (hC : TM.Groups C2 (fun n => (D n).isSome))
    (hb1 : Build.Step M D { S with fs := X.fs } .begin S1) (hrun : Build.CSteps M D C2 Build.NoIgnore (Build.CSt.init orig2 S1) Y) (hover : Y.T.over)
    (hns : Y.T.stopped = false) (hok : Y.T.failedTasks = ∅) {foundCycle : V → Bool} (hcl : ¬ cleanupRaises Y.T foundCycle) {t : V} (ht : t ∈ orig2) :
    Build.Clean M D Y.S.fs t (Y.S.fs t) :=
  Build.C44_successful_run_builds_everything hM (C58_clean_keeps_history hist hb h) hC hb1 hrun hover hns hok hcl ht

/-! ## Concrete runs -/

section
variable {k : Nat} {B : Type}

/-- What happens next. -/
inductive Cmd (k : Nat)
  | go (pushed : List (Fin k))
  | rm (n : Fin k)
  | fin (n : Fin k) (post : List (Fin k))

/-- Executable version of `Step` when nothing is stuck. -/
def exec (C : Cfg (Fin k)) (K : Marks (Fin k)) (sees : (Fin k → Option B) → Fin k → List (Fin k)) (X : St (Fin k) B) : Cmd k → Option (St (Fin k) B)
  | .go pushed =>
    match nextCandidate X.T [] with
    | none => none
    | some (_, n) =>
      match returned C X.T [] (.ok (X.kids sees n)) pushed with
      | none => (TM.step C X.T (.consider [] (.ok (X.kids sees n)) pushed .start [])).map fun T' => ⟨T', X.fs, X.todo, X.scanned C sees n⟩
      | some n' =>
        if n' = n then
          (TM.step C X.T (.consider [] (.ok (X.kids sees n)) pushed .start [])).map fun T' => ⟨T', X.fs, upd X.todo n (toRemove C K n), X.scanned C sees n⟩
        else none
  | .rm n =>
    match X.todo n with
    | [] => none
    | f :: rest => if n ∈ X.T.active then some ⟨X.T, upd X.fs f none, upd X.todo n rest, X.memo⟩ else none
  | .fin n post => if X.todo n = [] then (TM.step C X.T (.finish n none post)).map fun T' => ⟨T', X.fs, X.todo, X.memo⟩ else none

theorem exec_sound {C : Cfg (Fin k)} {K : Marks (Fin k)} {sees : (Fin k → Option B) → Fin k → List (Fin k)} {Alt : Fin k → Prop} (hK : ∀ f, ¬ K.stuck f)
    {X X' : St (Fin k) B} {c : Cmd k} (h : exec C K sees X c = some X') : Step C K sees Alt X X' := by
  cases c with
  | go pushed =>
    simp only [exec] at h
    split at h
    · cases h
    rename_i T1 n hnc
    split at h
    · rename_i hr
      rw [Option.map_eq_some_iff] at h
      obtain ⟨T', hT, rfl⟩ := h
      exact .look (by simp) hnc hT hr
    · rename_i n' hr
      split at h
      case isFalse => cases h
      rename_i e; subst e
      rw [Option.map_eq_some_iff] at h
      obtain ⟨T', hT, rfl⟩ := h
      exact .hand (by simp) hT hr
  | rm n =>
    simp only [exec] at h
    split at h
    · cases h
    rename_i f rest hf
    split at h
    case isFalse => cases h
    rename_i ha
    simp only [Option.some.injEq] at h
    subst h
    exact .rm ha hf (hK f)
  | fin n post =>
    simp only [exec] at h
    split at h
    case isFalse => cases h
    rename_i hn
    rw [Option.map_eq_some_iff] at h
    obtain ⟨T', hT, rfl⟩ := h
    exact .done hn hT

/-- A list of commands. -/
def execs (C : Cfg (Fin k)) (K : Marks (Fin k)) (sees : (Fin k → Option B) → Fin k → List (Fin k)) : St (Fin k) B → List (Cmd k) → Option (St (Fin k) B)
  | X, [] => some X
  | X, c :: cs => (exec C K sees X c).bind fun X' => execs C K sees X' cs

theorem execs_sound {C : Cfg (Fin k)} {K : Marks (Fin k)} {sees : (Fin k → Option B) → Fin k → List (Fin k)} {Alt : Fin k → Prop} (hK : ∀ f, ¬ K.stuck f)
    {X0 X X' : St (Fin k) B} {cs : List (Cmd k)} (h : execs C K sees X cs = some X') (h0 : Steps C K sees Alt X0 X) : Steps C K sees Alt X0 X' := by
  induction cs generalizing X with
  | nil => simp only [execs, Option.some.injEq] at h; subst h; exact h0
  | cons c cs ih =>
    simp only [execs, Option.bind_eq_some_iff] at h
    obtain ⟨X1, h1, h2⟩ := h
    exact ih h2 (.tail h0 (exec_sound hK h1))

end

/-- 0 is a source; 1 (`a.c`) and 2 (`b.h`) are generated from it; 3 (`a.o`) is built from 1, which includes 2. -/
def genCfg : Cfg (Fin 5) :=
  { targets := fun n => [n], actTargets := fun n => if n = 0 then [] else [n], prereqs := fun _ => [], sideEffects := fun _ => [] }

/-- 4 was attached to 3 by `Clean()`. -/
def genMarks : Marks (Fin 5) :=
  { built := fun n => decide (n = 1 ∨ n = 2 ∨ n = 3), noclean := fun _ => false, extra := fun n => if n = 3 then [4] else [], stuck := fun _ => False }

/-- `a.o` depends on `a.c` and on what the text of `a.c` includes: `b.h`, if there is a file `a.c`. -/
def genSees (fs : Fin 5 → Option Nat) (n : Fin 5) : List (Fin 5) :=
  if n = 1 ∨ n = 2 then [0] else if n = 3 then (if (fs 1).isSome then [1, 2] else [1]) else []

/-- Everything is built. -/
def genFs : Fin 5 → Option Nat := fun n => some n

theorem gen_fits (orig : List (Fin 5)) : Fits genCfg genSees (fun _ => False) orig where
  project :=
    { wf := ⟨by decide, by decide, by decide, by decide⟩
      iso := ⟨fun _ _ _ _ => (by rintro ⟨t, h⟩; cases h), fun _ _ h => (by cases h)⟩
      top := fun _ _ => (by rintro ⟨t, h⟩; cases h) }
  pre := fun _ _ _ => rfl
  peers := fun fs n m hm => (by simp [genCfg] at hm; rw [hm])
  noSE := fun _ _ _ _ => (by rintro ⟨t, h⟩; cases h)
  altSE := fun _ h => h.elim

/-- `scons -c a.c a.o` -/
def wrongOrder : List (Cmd 5) := [.go [0], .go [], .fin 0 [1], .go [], .rm 1, .fin 1 [], .go [], .rm 3, .rm 3, .fin 3 []]

/-- `scons -c a.o a.c` -/
def rightOrder : List (Cmd 5) :=
  [.go [1, 2], .go [0], .go [], .fin 0 [2], .go [], .rm 2, .fin 2 [], .go [], .rm 1, .fin 1 [3], .go [], .rm 3, .rm 3, .fin 3 [], .go []]

theorem wrong_some : (execs genCfg genMarks genSees (St.init [1, 3] genFs) wrongOrder).isSome = true := by decide +kernel
theorem right_some : (execs genCfg genMarks genSees (St.init [3, 1] genFs) rightOrder).isSome = true := by decide +kernel

/-- The ends of both runs. -/
def wrongEnd : St (Fin 5) Nat := (execs genCfg genMarks genSees (St.init [1, 3] genFs) wrongOrder).get wrong_some
/-- The ends of both runs. -/
def rightEnd : St (Fin 5) Nat := (execs genCfg genMarks genSees (St.init [3, 1] genFs) rightOrder).get right_some

theorem wrong_run : Steps genCfg genMarks genSees (fun _ => False) (St.init [1, 3] genFs) wrongEnd :=
  execs_sound (fun _ h => h) (Option.some_get wrong_some).symm (.refl _)
theorem right_run : Steps genCfg genMarks genSees (fun _ => False) (St.init [3, 1] genFs) rightEnd :=
  execs_sound (fun _ h => h) (Option.some_get right_some).symm (.refl _)

/-- **C58, counterexample.**  Both runs end normally for the same two targets; `b.h` is needed for `a.o` in the graph from which both start, and `-c a.c a.o` leaves it: `a.c`, which includes it, was
removed before `a.o` was scanned. -/
theorem C58_order_counterexample :
    (wrongEnd.T.over ∧ wrongEnd.T.stopped = false ∧ wrongEnd.T.pend = ∅ ∧ wrongEnd.fs 2 = some 2) ∧ (rightEnd.T.over ∧ rightEnd.T.stopped = false ∧ rightEnd.fs 2 = none) ∧
      Needs genCfg genSees genFs 3 2 ∧ genMarks.built 2 = true := by
  have h1 : wrongEnd.T.cands = [] ∧ (wrongEnd.T.tops = [] ∨ wrongEnd.T.stopped = true) ∧ wrongEnd.T.active = [] := by decide +kernel
  have h2 : rightEnd.T.cands = [] ∧ (rightEnd.T.tops = [] ∨ rightEnd.T.stopped = true) ∧ rightEnd.T.active = [] := by decide +kernel
  exact ⟨⟨h1, by decide +kernel, by decide +kernel, by decide +kernel⟩, ⟨h2, by decide +kernel, by decide +kernel⟩, Or.inr (by decide), by decide⟩

/-- The hypotheses of the C58 theorems hold in the second run; it removes generated and `Clean()` files and leaves the source. -/
theorem C58_nonvacuous : (∀ x ∈ [1, 2, 3], rightEnd.fs x = none) ∧ rightEnd.fs 4 = none ∧ rightEnd.fs 0 = some 0 := by
  have hov : rightEnd.T.cands = [] ∧ (rightEnd.T.tops = [] ∨ rightEnd.T.stopped = true) ∧ rightEnd.T.active = [] := by decide +kernel
  have hns : rightEnd.T.stopped = false := by decide +kernel
  have hp : rightEnd.T.pend = ∅ := by decide +kernel
  have hseen : (1 : Fin 5) ∈ rightEnd.T.seen 3 ∧ (2 : Fin 5) ∈ rightEnd.T.seen 3 := by decide +kernel
  have hrun := right_run
  generalize rightEnd = R at *
  have hB : ∀ n : Fin 5, ∀ m ∈ genCfg.targets n, genMarks.built m = genMarks.built n := by decide
  have key := fun {x : Fin 5} (hx : Relation.ReflTransGen (TM.DependsOn R.T) 3 x) =>
    C58_clean_removes_what_it_reaches (gen_fits [3, 1]) hB hrun hov hns (foundCycle := fun _ => false) (by rintro ⟨n, hn, _⟩; rw [hp] at hn; simp at hn)
      (t := 3) (by simp) hx
  have h3 := key .refl
  have h1 := key (.single hseen.1)
  have h2 := key (.single hseen.2)
  refine ⟨?_, h3.2 3 rfl 4 (by decide) (fun h => h), ?_⟩
  · intro x hx
    simp only [List.mem_cons, List.not_mem_nil, or_false] at hx
    rcases hx with rfl | rfl | rfl
    · exact h1.1 1 (by decide) (by decide) rfl (fun h => h)
    · exact h2.1 2 (by decide) (by decide) rfl (fun h => h)
    · exact h3.1 3 (by decide) (by decide) rfl (fun h => h)
  · exact (C58_sources_are_safe (gen_fits [3, 1]) hB hrun (by decide) (by decide)).trans rfl

/-- The graph without the scanner: `Steady` holds. -/
def plainSees (fs : Fin 5 → Option Nat) (n : Fin 5) : List (Fin 5) := if n = 1 ∨ n = 2 then [0] else if n = 3 then [1, 2] else []

theorem C58_steady_nonvacuous : Steady genCfg genMarks plainSees genFs ∧ Relation.ReflTransGen (Needs genCfg plainSees genFs) 3 2 :=
  ⟨fun _ _ _ => rfl, .single (Or.inr (by decide))⟩

end Verif.Clean
