import Verif.Script.Question
import Verif.Build.ComposeWitness

/-!
# C57: `scons -q` after the example history of C44
-/

namespace Verif.Build

open Verif.Sig

section
variable {k : Nat}

/-- Executable version of `QStep`. -/
def qexec (D : Desc (Fin k) Nat Nat) (C : TM.Cfg (Fin k)) (orig : List (Fin k)) (X : CSt (Fin k) Nat Nat Nat) (pushed post : List (Fin k)) :
    Option (CSt (Fin k) Nat Nat Nat) :=
  match TM.nextCandidate X.T [] with
  | none => none
  | some (_, n) =>
    let scan := TM.Scan.ok (X.kidsOf D C n)
    match TM.returned C X.T [] scan pushed with
    | none => (TM.step C X.T (.consider [] scan pushed (.internal none) post)).map fun T' => ⟨T', X.S, X.scanned D C n scan⟩
    | some n' =>
      if n' = n then
        if (D n).isNone ∧ (n ∈ orig → (X.S.fs n).isSome) then
          (TM.step C X.T (.consider [] scan pushed (.internal none) post)).map fun T' => ⟨T', X.S.effSource n, X.scanned D C n scan⟩
        else if (∀ t ∈ C.targets n, (X.leafOf D t).isSome) ∧ (X.S.checkAll exM (X.lf D) (C.targets n)).2 = true then
          (TM.step C X.T (.consider [] scan pushed (.internal none) post)).map fun T' =>
            ⟨T', (X.S.checkAll exM (X.lf D) (C.targets n)).1.currentAll exM (X.lf D) (C.targets n), X.scanned D C n scan⟩
        else none
      else none

theorem qexec_sound {D : Desc (Fin k) Nat Nat} {C : TM.Cfg (Fin k)} {orig pushed post : List (Fin k)} {X X' : CSt (Fin k) Nat Nat Nat}
    (h : qexec D C orig X pushed post = some X') : QStep exM D C orig [] X X' := by
  simp only [qexec] at h
  split at h
  · cases h
  rename_i T1 n hnc
  split at h
  · rename_i hr
    rw [Option.map_eq_some_iff] at h
    obtain ⟨T', hT, rfl⟩ := h
    exact .walk hT hnc hr
  · rename_i n' hr
    split at h
    case isFalse => cases h
    rename_i e; subst e
    split at h
    · rename_i hD
      rw [Option.map_eq_some_iff] at h
      obtain ⟨T', hT, rfl⟩ := h
      exact .source hT hr (Option.isNone_iff_eq_none.1 hD.1) hD.2
    · split at h
      case isFalse => cases h
      rename_i hl
      rw [Option.map_eq_some_iff] at h
      obtain ⟨T', hT, rfl⟩ := h
      exact .current hT hr (CSt.lf_leaves hl.1) hl.2

/-- A list of steps. -/
def qexecs (D : Desc (Fin k) Nat Nat) (C : TM.Cfg (Fin k)) (orig : List (Fin k)) : CSt (Fin k) Nat Nat Nat → List (List (Fin k) × List (Fin k)) → Option (CSt (Fin k) Nat Nat Nat)
  | X, [] => some X
  | X, c :: cs => (qexec D C orig X c.1 c.2).bind fun X' => qexecs D C orig X' cs

theorem qexecs_sound {D : Desc (Fin k) Nat Nat} {C : TM.Cfg (Fin k)} {orig : List (Fin k)} {X0 X X' : CSt (Fin k) Nat Nat Nat} {cs : List (List (Fin k) × List (Fin k))}
    {Q : Fin k → Prop} (h : qexecs D C orig X cs = some X') (h0 : QSteps exM D C orig Q X0 X) : QSteps exM D C orig Q X0 X' := by
  induction cs generalizing X with
  | nil => simp only [qexecs, Option.some.injEq] at h; subst h; exact h0
  | cons c cs ih =>
    simp only [qexecs, Option.bind_eq_some_iff] at h
    obtain ⟨X1, h1, h2⟩ := h
    exact ih h2 (.tail [] h0 (by simp) (qexec_sound h1))

end

/-- `scons -q` after the second run of the example. -/
def qcmds0 : List (List (Fin 4) × List (Fin 4)) := [([1], []), ([0], []), ([], [1]), ([], [2]), ([], [])]

theorem q0_some : (qexecs exE exCfg [2] (CSt.init [2] (begun (ended run2.S))) qcmds0).isSome = true := by decide +kernel

/-- Its end. -/
def q0 : CSt (Fin 4) Nat Nat Nat := (qexecs exE exCfg [2] (CSt.init [2] (begun (ended run2.S))) qcmds0).get q0_some

theorem q0_eq : qexecs exE exCfg [2] (CSt.init [2] (begun (ended run2.S))) qcmds0 = some q0 := (Option.some_get q0_some).symm

/-- `scons -q` after file 0 was changed, up to node 1, which is out of date. -/
def qcmds1 : List (List (Fin 4) × List (Fin 4)) := [([1, 3], []), ([], []), ([0], []), ([], [1])]

theorem q1_some : (qexecs exE exCfg [2] (CSt.init [2] (begun mid)) qcmds1).isSome = true := by decide +kernel

/-- Its end. -/
def q1 : CSt (Fin 4) Nat Nat Nat := (qexecs exE exCfg [2] (CSt.init [2] (begun mid)) qcmds1).get q1_some

theorem q1_eq : qexecs exE exCfg [2] (CSt.init [2] (begun mid)) qcmds1 = some q1 := (Option.some_get q1_some).symm

/-- After the second run `scons -q` answers 0; before it, with file 0 changed, it answers 1. -/
theorem q_answers (Q : Fin 4 → Prop) : Answers exM exE exCfg [2] Q (begun (ended run2.S)) q0 0 ∧ Answers exM exE exCfg [2] Q (begun mid) q1 1 := by
  refine ⟨.upToDate (qexecs_sound q0_eq (.refl _)) (by decide +kernel) (by decide +kernel), .outOfDate [] (qexecs_sound q1_eq (.refl _)) (by simp) ?_⟩
  exact ⟨[], 1, by decide +kernel, Or.inl ⟨q1.lf exE, CSt.lf_leaves (by decide +kernel), by decide +kernel⟩⟩

theorem run2_hist : Hist exM exE (ended run2.S) := by
  have hrun := (cexecs_sound run2_eq ⟨.refl _, .refl _, fun _ => .refl _⟩).1
  have hidle : run2.T.active = [] := by decide +kernel
  have hbusy : run2.S.busy = true := by decide +kernel
  have hnone : ∀ t : Fin 4, (run2.S.running t).isNone = true := by decide +kernel
  have hh := ex_hist
  have hm : mid.busy = false := rfl
  generalize run2 = R at *
  generalize mid = Sm at *
  exact .build exCfg [2] hh exCfg_groups (begun_step exE Sm hm) hrun hidle (ended_step exE _ hbusy hnone)

/-- The hypotheses of both theorems hold: run 3 follows an answer 0 and starts nothing, run 2 follows an answer 1 and starts something. -/
theorem C57_nonvacuous : (run3.T.started = [] ∧ run3.S.fs = run2.S.fs ∧ run3.T.over) ∧ (run2.T.started ≠ [] ∨ ∃ t ∈ [2], exE t = none ∧ mid.fs t = none) := by
  have hp : q0.T.pend = ∅ := by decide +kernel
  have ho : run3.T.cands = [] ∧ (run3.T.tops = [] ∨ run3.T.stopped = true) ∧ run3.T.active = [] := by decide +kernel
  have hrun3 := (cexecs_sound run3_eq ⟨.refl _, .refl _, fun _ => .refl _⟩).2.2
  have hrun2 := (cexecs_sound run2_eq ⟨.refl _, .refl _, fun _ => .refl _⟩).2.1
  have hov : run2.T.cands = [] ∧ run2.T.tops = [] ∧ run2.T.active = [] ∧ run2.T.stopped = false ∧ run2.T.failedTasks = ∅ ∧ run2.T.pend = ∅ := by
    decide +kernel
  obtain ⟨o1, o2, o3, o4, o5, o6⟩ := hov
  have hh2 := run2_hist
  have hh := ex_hist
  have hm : mid.busy = false := rfl
  have ha := q_answers
  have hz : (ended run2.S).busy = false := rfl
  have hfse : (ended run2.S).fs = run2.S.fs := rfl
  generalize run3 = R3 at *
  generalize q0 = Q0 at *
  generalize q1 = Q1 at *
  constructor
  · clear hrun2
    generalize ended run2.S = E2 at *
    rw [← hfse]
    generalize run2 = R2 at *
    rw [← and_assoc]
    refine ⟨?_, ho⟩
    refine C57_zero_means_nothing_to_do exM_faithful hh2 exCfg_groups (begun_step exE _ hz) (ha R2.S.done).1 (foundCycle := fun _ => false) ?_ (hrun3 _)
    rintro ⟨n, hn, _⟩
    rw [hp] at hn; simp at hn
  · clear hrun3 hh2
    generalize run2 = R2 at *
    generalize mid = Sm at *
    refine C57_one_means_something_to_do exM_faithful hh exCfg_groups (begun_step exE _ hm) hrun2 ⟨o1, Or.inl o2, o3⟩ o4 o5 (foundCycle := fun _ => false) ?_
      (ha R2.S.done).2
    rintro ⟨n, hn, _⟩
    rw [o6] at hn; simp at hn

end Verif.Build
