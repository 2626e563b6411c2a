import Verif.Build.NullBuild
import Verif.Build.Witness
import Verif.TM.Witness

/-!
# C44: a concrete history of two builds driven by the Taskmaster

The second build rescans a target whose generated dependency has changed: the first scan of node 2 sees the stale node 1 and reports node 3, the scan after
node 1 has been rebuilt does not.
-/

namespace Verif.Build

open Verif.Sig

/-- 0 and 3 are sources; 1 is generated from 0; 2 is built from 1 and, if the content of 1 is below 10, also from 3 (found by the scanner). -/
def exE : Desc (Fin 4) Nat Nat := fun v =>
  if v = 0 ∨ v = 3 then none
  else if v = 1 then some (.found { sources := [0], depends := [], implicit := [], ignore := [], action := 1 })
  else some (.look 1 fun c =>
    if (c.getD 0) < 10 then .found { sources := [1], depends := [], implicit := [3], ignore := [], action := 2 }
    else .found { sources := [1], depends := [], implicit := [], ignore := [], action := 2 })

theorem exE_wf : WF exE := by
  intro t sc h fs
  unfold exE at h
  split at h
  · cases h
  · split at h
    · simp only [Option.some.injEq] at h
      subst h
      simp [Scan.asked, Scan.result, Leaf.children]
    · simp only [Option.some.injEq] at h
      subst h
      by_cases h0 : (fs 1).getD 0 < 10 <;> simp [Scan.asked, Scan.result, Leaf.children, h0]

/-- Executors of the example. -/
def exCfg : TM.Cfg (Fin 4) :=
  { targets := fun n => [n], actTargets := fun n => if n = 0 ∨ n = 3 then [] else [n], prereqs := fun _ => [], sideEffects := fun _ => [] }

theorem exCfg_groups : TM.Groups exCfg (fun n => (exE n).isSome) := TM.Groups.solo (fun _ => rfl) (fun _ => rfl) (by decide) (by decide)

/-- What happens next: the search goes on (with the given orders), or the action of a node ends successfully. -/
inductive Cmd (k : Nat)
  | go (pushed post : List (Fin k))
  | fin (n : Fin k) (post : List (Fin k))

section
variable {k : Nat}

/-- A dependency list, for nodes that have none. -/
def noLeaf : Leaf (Fin k) Nat := { sources := [], depends := [], implicit := [], ignore := [], action := 0 }

/-- The dependency lists of all nodes. -/
def CSt.lf (D : Desc (Fin k) Nat Nat) (X : CSt (Fin k) Nat Nat Nat) (t : Fin k) : Leaf (Fin k) Nat := (X.leafOf D t).getD noLeaf

/-- Executable version of `CStep` without failures. -/
def cexec (D : Desc (Fin k) Nat Nat) (C : TM.Cfg (Fin k)) (X : CSt (Fin k) Nat Nat Nat) : Cmd k → Option (CSt (Fin k) Nat Nat Nat)
  | .go pushed post =>
    match TM.nextCandidate X.T [] with
    | none => none
    | some (_, n) =>
      let scan := TM.Scan.ok (X.kidsOf D C n)
      match TM.returned C X.T [] scan pushed with
      | none => (TM.step C X.T (.consider [] scan pushed (.internal none) post)).map fun T' => ⟨T', X.S, X.scanned D C n scan⟩
      | some n' =>
        if n' = n ∧ ∀ t ∈ C.targets n', X.T.state t ≠ .failed then
          if (D n).isNone then
            (TM.step C X.T (.consider [] scan pushed (.internal none) post)).map fun T' => ⟨T', X.S.effSource n, X.scanned D C n scan⟩
          else if ∀ t ∈ C.targets n, (X.leafOf D t).isSome then
            if (X.S.checkAll exM (X.lf D) (C.targets n)).2 = true then
              (TM.step C X.T (.consider [] scan pushed (.internal none) post)).map fun T' =>
                ⟨T', (X.S.checkAll exM (X.lf D) (C.targets n)).1.currentAll exM (X.lf D) (C.targets n), X.scanned D C n scan⟩
            else
              (TM.step C X.T (.consider [] scan pushed .start post)).map fun T' =>
                ⟨T', (X.S.checkAll exM (X.lf D) (C.targets n)).1.startAll (X.lf D) (C.targets n), X.scanned D C n scan⟩
          else none
        else none
  | .fin n post =>
    if ∀ t ∈ C.targets n, X.T.state t = .executing ∧ (X.S.running t).isSome ∧ ∀ r ∈ X.S.running t, r.log ≠ [] then
      (TM.step C X.T (.finish n none post)).map fun T' =>
        ⟨T', X.S.finishAll exM (fun t => X.T.state t = .executing) (fun t => (X.S.running t).getD ⟨noLeaf, []⟩)
          (fun t => ((X.S.running t).getD ⟨noLeaf, []⟩).log.headD X.S.fs) (C.targets n),
          fun x => if X.forgets C n x then none else X.memo x⟩
    else none

theorem CSt.lf_leaves {D : Desc (Fin k) Nat Nat} {X : CSt (Fin k) Nat Nat Nat} {ts : List (Fin k)} (h : ∀ t ∈ ts, (X.leafOf D t).isSome = true) :
    X.leaves D ts (X.lf D) := by
  intro t ht
  obtain ⟨l, hl⟩ := Option.isSome_iff_exists.1 (h t ht)
  simp [CSt.lf, hl]

theorem cexec_sound {D : Desc (Fin k) Nat Nat} {C : TM.Cfg (Fin k)} {X X' : CSt (Fin k) Nat Nat Nat} {c : Cmd k} (h : cexec D C X c = some X') :
    ∃ l, Tidy C X l X' ∧ NoIgnore X l X' ∧ (∀ Q, AltIn Q X l X') ∧ CStep exM D C X l X' := by
  cases c with
  | go pushed post =>
    simp only [cexec] at h
    split at h
    · cases h
    rename_i T1 n hnc
    have hok : X.scanOK D C n (.ok (X.kidsOf D C n)) := Or.inr rfl
    split at h
    · rename_i hr
      rw [Option.map_eq_some_iff] at h
      obtain ⟨T', hT, rfl⟩ := h
      refine ⟨_, ⟨?_, ?_, fun alt scan pushed' fate post' m e hm => ?_⟩, ?_, ?_, .walk hT hnc hok hr⟩
      case refine_3 => cases e; rw [hr] at hm; cases hm
      all_goals simp [TM.Lab.noIgnore, NoIgnore, AltIn]
    · rename_i n' hr
      split at h
      case isFalse => cases h
      rename_i e; obtain ⟨e, hnf⟩ := e; subst e
      have hT3 : ∀ fate post' alt' scan' pushed' fate' post'' m, (TM.Lab.consider [] (.ok (X.kidsOf D C n')) pushed fate post' : TM.Lab (Fin k)) = .consider alt' scan' pushed' fate' post'' →
          TM.returned C X.T alt' scan' pushed' = some m → ∀ t ∈ C.targets m, X.T.state t ≠ .failed := by
        intro fate post' alt' scan' pushed' fate' post'' m e hm
        cases e
        rw [hr] at hm; cases hm; exact hnf
      split at h
      · rename_i hD
        rw [Option.map_eq_some_iff] at h
        obtain ⟨T', hT, rfl⟩ := h
        refine ⟨_, ⟨?_, ?_, fun _ _ _ _ _ _ => hT3 _ _ _ _ _ _ _ _⟩, ?_, ?_, .source hT hok hr (Option.isNone_iff_eq_none.1 hD)⟩ <;> simp [TM.Lab.noIgnore, NoIgnore, AltIn]
      · split at h
        case isFalse => cases h
        rename_i hl
        have hl := CSt.lf_leaves hl
        split at h
        · rename_i hu
          rw [Option.map_eq_some_iff] at h
          obtain ⟨T', hT, rfl⟩ := h
          refine ⟨_, ⟨?_, ?_, fun _ _ _ _ _ _ => hT3 _ _ _ _ _ _ _ _⟩, ?_, ?_, .current hT hok hr hl hu⟩ <;> simp [TM.Lab.noIgnore, NoIgnore, AltIn]
        · rename_i hu
          rw [Option.map_eq_some_iff] at h
          obtain ⟨T', hT, rfl⟩ := h
          refine ⟨_, ⟨?_, ?_, fun _ _ _ _ _ _ => hT3 _ _ _ _ _ _ _ _⟩, ?_, ?_, .start hT hok hr hl (by simpa using hu)⟩ <;> simp [TM.Lab.noIgnore, NoIgnore, AltIn]
  | fin n post =>
    simp only [cexec] at h
    split at h
    case isFalse => cases h
    rename_i hex
    rw [Option.map_eq_some_iff] at h
    obtain ⟨T', hT, rfl⟩ := h
    refine ⟨_, ⟨?_, ?_, ?_⟩, ?_, ?_, .finish hT ?_⟩
    · trivial
    · intro n' res post' e t ht
      cases e
      left
      rw [(finishAll_fields _ _ _ _ _ _).2.2.1]
      exact Or.inl ⟨ht, by simp [(hex t ht).1]⟩
    · intro _ _ _ _ _ _ e; cases e
    · trivial
    · intro Q; trivial
    · intro t ht
      obtain ⟨-, h1, h2⟩ := hex t ht
      obtain ⟨r, hr⟩ := Option.isSome_iff_exists.1 h1
      have h3 := h2 r hr
      simp only [hr, Option.getD_some, true_and]
      intro c _
      cases hlog : r.log with
      | nil => exact absurd hlog h3
      | cons s ss => exact ⟨s, by simp, by simp⟩

/-- A list of commands. -/
def cexecs (D : Desc (Fin k) Nat Nat) (C : TM.Cfg (Fin k)) : CSt (Fin k) Nat Nat Nat → List (Cmd k) → Option (CSt (Fin k) Nat Nat Nat)
  | X, [] => some X
  | X, c :: cs => (cexec D C X c).bind fun X' => cexecs D C X' cs

theorem cexecs_sound {D : Desc (Fin k) Nat Nat} {C : TM.Cfg (Fin k)} {X X' X0 : CSt (Fin k) Nat Nat Nat} {cs : List (Cmd k)} (h : cexecs D C X cs = some X')
    (h0 : CSteps exM D C (Tidy C) X0 X ∧ CSteps exM D C NoIgnore X0 X ∧ ∀ Q, CSteps exM D C (AltIn Q) X0 X) :
    CSteps exM D C (Tidy C) X0 X' ∧ CSteps exM D C NoIgnore X0 X' ∧ ∀ Q, CSteps exM D C (AltIn Q) X0 X' := by
  induction cs generalizing X with
  | nil => simp only [cexecs, Option.some.injEq] at h; subst h; exact h0
  | cons c cs ih =>
    simp only [cexecs, Option.bind_eq_some_iff] at h
    obtain ⟨X1, h1, h2⟩ := h
    obtain ⟨l, a1, a2, a4, a3⟩ := cexec_sound h1
    exact ih h2 ⟨.tail l h0.1 a1 a3, .tail l h0.2.1 a2 a3, fun Q => .tail l (h0.2.2 Q) (a4 Q) a3⟩

/-- Start of a run. -/
def begun (S : St (Fin k) Nat Nat Nat) : St (Fin k) Nat Nat Nat :=
  { S with busy := true, done := fun _ => False, running := fun _ => none, infos := fun _ => {}, db := S.disk }

/-- End of a run. -/
def ended (S : St (Fin k) Nat Nat Nat) : St (Fin k) Nat Nat Nat := { S with busy := false, disk := S.db }

theorem begun_step (D : Desc (Fin k) Nat Nat) (S : St (Fin k) Nat Nat Nat) (h : S.busy = false) : Step exM D S .begin (begun S) := .begin S h
theorem ended_step (D : Desc (Fin k) Nat Nat) (S : St (Fin k) Nat Nat Nat) (h : S.busy = true) (h' : ∀ t, (S.running t).isNone = true) : Step exM D S .finishRun (ended S) :=
  .finishRun S h (fun t => Option.isNone_iff_eq_none.1 (h' t))

end

/-- A fresh check-out. -/
def exF : St (Fin 4) Nat Nat Nat :=
  { fs := fun v => if v = 0 then some 4 else if v = 3 then some 100 else none, db := fun _ => {}, disk := fun _ => {}, infos := fun _ => {},
    done := fun _ => False, running := fun _ => none, busy := false }

/-- The user changes file 0. -/
def edited (S : St (Fin 4) Nat Nat Nat) : St (Fin 4) Nat Nat Nat := { S with fs := fun x => if x = 0 then some 20 else S.fs x }

/-- Both runs: 2 is looked at, waits for 1 and 3; 1 waits for 0; 0, 1 and then 2 are built.  In the second run (after file 0 was changed) the first scan of 2
still reports 3, the second one does not. -/
def cmds : List (Cmd 4) := [.go [1, 3] [], .go [] [], .go [0] [], .go [] [1], .go [] [], .fin 1 [2], .go [] [], .fin 2 []]

theorem run1_some : (cexecs exE exCfg (CSt.init [2] (begun exF)) cmds).isSome = true := by decide +kernel

/-- The end of the first run. -/
def run1 : CSt (Fin 4) Nat Nat Nat := (cexecs exE exCfg (CSt.init [2] (begun exF)) cmds).get run1_some

/-- The state in which the second run starts. -/
def mid : St (Fin 4) Nat Nat Nat := edited (ended run1.S)

theorem run2_some : (cexecs exE exCfg (CSt.init [2] (begun mid)) cmds).isSome = true := by decide +kernel

/-- The end of the second run. -/
def run2 : CSt (Fin 4) Nat Nat Nat := (cexecs exE exCfg (CSt.init [2] (begun mid)) cmds).get run2_some

theorem edited_step (S : St (Fin 4) Nat Nat Nat) (h : S.busy = false) : Step exM exE S (.edit 0 (some 20)) (edited S) := .edit S 0 (some 20) h

theorem run1_eq : cexecs exE exCfg (CSt.init [2] (begun exF)) cmds = some run1 := (Option.some_get run1_some).symm
theorem run2_eq : cexecs exE exCfg (CSt.init [2] (begun mid)) cmds = some run2 := (Option.some_get run2_some).symm

theorem ex_hist : Hist exM exE mid := by
  have h0 : Hist exM exE exF := .init exE _ exE_wf
  have hrun := (cexecs_sound run1_eq ⟨.refl _, .refl _, fun _ => .refl _⟩).1
  have hidle : run1.T.active = [] := by decide +kernel
  have hbusy : run1.S.busy = true := by decide +kernel
  have hnone : ∀ t : Fin 4, (run1.S.running t).isNone = true := by decide +kernel
  have hact : ((ended run1.S).disk 0).bactsig.isNone = true := by decide +kernel
  unfold mid
  generalize run1 = R at *
  have h1 : Hist exM exE (ended R.S) := .build exCfg [2] h0 exCfg_groups (begun_step exE exF rfl) hrun hidle (ended_step exE _ hbusy hnone)
  exact .edit 0 (some 20) h1 (Or.inr (Option.isNone_iff_eq_none.1 hact)) (edited_step _ rfl)

/-- All hypotheses of C44 hold for the second run; the result is not the stale one. -/
theorem C44_nonvacuous :
    Clean exM exE run2.S.fs 2 (run2.S.fs 2) ∧ run2.S.fs 1 = some 21 ∧ run2.S.fs 2 = some 44 ∧ run1.S.fs 2 = some 212 := by
  refine ⟨?_, by decide +kernel, by decide +kernel, by decide +kernel⟩
  have hrun := (cexecs_sound run2_eq ⟨.refl _, .refl _, fun _ => .refl _⟩).2.1
  have hov : run2.T.cands = [] ∧ run2.T.tops = [] ∧ run2.T.active = [] ∧ run2.T.stopped = false ∧ run2.T.failedTasks = ∅ ∧ run2.T.pend = ∅ := by
    decide +kernel
  obtain ⟨o1, o2, o3, o4, o5, o6⟩ := hov
  have hh := ex_hist
  have hm : mid.busy = false := rfl
  generalize run2 = R at *
  generalize mid = Sm at *
  refine C44_successful_run_builds_everything exM_faithful hh exCfg_groups (begun_step exE Sm hm) hrun ⟨o1, Or.inl o2, o3⟩ o4 o5
    (foundCycle := fun _ => false) ?_ (by simp)
  rintro ⟨n, hn, _⟩
  rw [o6] at hn; simp at hn

/-- In the second run, node 3 was reported by the first scan of node 2 but is not a dependency in the end: re-scans may shrink. -/
theorem C44_rescan_shrinks : (3 : Fin 4) ∈ run2.T.seen 2 ∧ run2.kidsOf exE exCfg 2 = [1] := by decide +kernel

/-- A third run, right after the second. -/
def cmds3 : List (Cmd 4) := [.go [1] [], .go [0] [], .go [] [1], .go [] [2], .go [] []]

theorem run3_some : (cexecs exE exCfg (CSt.init [2] (begun (ended run2.S))) cmds3).isSome = true := by decide +kernel

/-- The end of the third run. -/
def run3 : CSt (Fin 4) Nat Nat Nat := (cexecs exE exCfg (CSt.init [2] (begun (ended run2.S))) cmds3).get run3_some

theorem run3_eq : cexecs exE exCfg (CSt.init [2] (begun (ended run2.S))) cmds3 = some run3 := (Option.some_get run3_some).symm

/-- All hypotheses of C16 for whole runs hold; the second run started two actions, the third run is over and considered all three nodes. -/
theorem C16_nonvacuous :
    (run3.T.started = [] ∧ run3.S.fs = run2.S.fs) ∧ run2.T.started = [2, 1] ∧ run3.T.state 0 = .upToDate ∧ run3.T.state 1 = .upToDate ∧
      run3.T.state 2 = .upToDate ∧ run3.T.over := by
  have hover : run3.T.cands = [] ∧ (run3.T.tops = [] ∨ run3.T.stopped = true) ∧ run3.T.active = [] := by decide +kernel
  refine ⟨?_, by decide +kernel, by decide +kernel, by decide +kernel, by decide +kernel, hover⟩
  have hrun := (cexecs_sound run2_eq ⟨.refl _, .refl _, fun _ => .refl _⟩).2.1
  have hrun3 := (cexecs_sound run3_eq ⟨.refl _, .refl _, fun _ => .refl _⟩).2.2
  have hov : run2.T.cands = [] ∧ run2.T.tops = [] ∧ run2.T.active = [] ∧ run2.T.stopped = false ∧ run2.T.failedTasks = ∅ ∧ run2.T.pend = ∅ := by
    decide +kernel
  obtain ⟨o1, o2, o3, o4, o5, o6⟩ := hov
  have hbusy : run2.S.busy = true := by decide +kernel
  have hnone : ∀ t : Fin 4, (run2.S.running t).isNone = true := by decide +kernel
  have hh := ex_hist
  have hm : mid.busy = false := rfl
  clear hover
  generalize run3 = R3 at *
  generalize run2 = R at *
  generalize mid = Sm at *
  refine C16_same_command_again_does_nothing exM_faithful hh exCfg_groups (begun_step exE Sm hm) hrun ⟨o1, Or.inl o2, o3⟩ o4 o5
    (foundCycle := fun _ => false) ?_ (ended_step exE _ hbusy hnone) (begun_step exE _ rfl) (hrun3 _)
  rintro ⟨n, hn, _⟩
  rw [o6] at hn; simp at hn

/-! ## An action with two targets -/

/-- 0 is a source; one action makes 1 and 2 from it (node 1 is scanned and may look at 0); 3 is built from 2. -/
def pairE : Desc (Fin 4) Nat Nat := fun v =>
  if v = 0 then none
  else if v = 1 then some (.look 0 fun _ => .found { sources := [0], depends := [], implicit := [], ignore := [], action := 5 })
  else if v = 2 then some (.found { sources := [0], depends := [], implicit := [], ignore := [], action := 7 })
  else some (.found { sources := [2], depends := [], implicit := [], ignore := [], action := 2 })

theorem pairE_wf : WF pairE := by
  intro t sc h fs
  unfold pairE at h
  split at h
  · cases h
  · split at h
    · simp only [Option.some.injEq] at h
      subst h
      simp [Scan.asked, Scan.result, Leaf.children]
    · split at h <;>
      · simp only [Option.some.injEq] at h
        subst h
        simp [Scan.asked, Scan.result, Leaf.children]

/-- Its executors. -/
def pairCfg : TM.Cfg (Fin 4) :=
  { targets := fun n => if n = 1 ∨ n = 2 then [1, 2] else [n], actTargets := fun n => if n = 0 then [] else if n = 1 ∨ n = 2 then [1, 2] else [n],
    prereqs := fun _ => [], sideEffects := fun _ => [] }

theorem pairCfg_groups : TM.Groups pairCfg (fun n => (pairE n).isSome) where
  wf := ⟨by decide, by decide, by decide, by decide⟩
  noSE := fun _ => rfl
  src := by decide
  all := by decide
  real := by decide
  pre := by decide

/-- A fresh check-out. -/
def pairF : St (Fin 4) Nat Nat Nat :=
  { fs := fun v => if v = 0 then some 4 else none, db := fun _ => {}, disk := fun _ => {}, infos := fun _ => {},
    done := fun _ => False, running := fun _ => none, busy := false }

/-- First run: 3 waits for 2, which waits for 0; the action runs for 1 and 2; 3 is built. -/
def pcmds1 : List (Cmd 4) := [.go [2] [], .go [0] [], .go [] [2], .go [] [], .fin 2 [3], .go [] [], .fin 3 []]

theorem prun1_some : (cexecs pairE pairCfg (CSt.init [3] (begun pairF)) pcmds1).isSome = true := by decide +kernel

/-- The end of the first run. -/
def prun1 : CSt (Fin 4) Nat Nat Nat := (cexecs pairE pairCfg (CSt.init [3] (begun pairF)) pcmds1).get prun1_some

theorem prun1_eq : cexecs pairE pairCfg (CSt.init [3] (begun pairF)) pcmds1 = some prun1 := (Option.some_get prun1_some).symm

/-- The user deletes file 1, which 3 does not depend on. -/
def pmid : St (Fin 4) Nat Nat Nat := { ended prun1.S with fs := fun x => if x = 1 then none else (ended prun1.S).fs x }

/-- Second run: the missing file 1 makes the action run again, for both targets; 3 is up to date. -/
def pcmds2 : List (Cmd 4) := [.go [2] [], .go [0] [], .go [] [2], .go [] [], .fin 2 [3], .go [] []]

theorem prun2_some : (cexecs pairE pairCfg (CSt.init [3] (begun pmid)) pcmds2).isSome = true := by decide +kernel

/-- The end of the second run. -/
def prun2 : CSt (Fin 4) Nat Nat Nat := (cexecs pairE pairCfg (CSt.init [3] (begun pmid)) pcmds2).get prun2_some

theorem prun2_eq : cexecs pairE pairCfg (CSt.init [3] (begun pmid)) pcmds2 = some prun2 := (Option.some_get prun2_some).symm

theorem pair_hist : Hist exM pairE pmid := by
  have h0 : Hist exM pairE pairF := .init pairE _ pairE_wf
  have hrun := (cexecs_sound prun1_eq ⟨.refl _, .refl _, fun _ => .refl _⟩).1
  have hidle : prun1.T.active = [] := by decide +kernel
  have hbusy : prun1.S.busy = true := by decide +kernel
  have hnone : ∀ t : Fin 4, (prun1.S.running t).isNone = true := by decide +kernel
  unfold pmid
  generalize prun1 = R at *
  have h1 : Hist exM pairE (ended R.S) := .build pairCfg [3] h0 pairCfg_groups (begun_step pairE pairF rfl) hrun hidle (ended_step pairE _ hbusy hnone)
  exact .edit 1 none h1 (Or.inl rfl) (.edit _ 1 none rfl)

/-- C44 with an action of two targets: file 1 is missing, so the second run starts the action for 1 and 2 although 2 is up to date and 1 is not wanted;
it succeeds, and both are as after a clean build. -/
theorem C44_pair_nonvacuous :
    Clean exM pairE prun2.S.fs 3 (prun2.S.fs 3) ∧ prun2.S.fs 1 = some 25 ∧ prun2.S.fs 2 = some 35 ∧ prun2.S.fs 3 = some 72 ∧
      pmid.fs 1 = none ∧ pmid.fs 2 = some 35 ∧ prun2.T.started = [1, 2] ∧ prun2.T.state 3 = .upToDate := by
  refine ⟨?_, by decide +kernel, by decide +kernel, by decide +kernel, by decide +kernel, by decide +kernel, by decide +kernel, by decide +kernel⟩
  have hrun := (cexecs_sound prun2_eq ⟨.refl _, .refl _, fun _ => .refl _⟩).2.1
  have hov : prun2.T.cands = [] ∧ prun2.T.tops = [] ∧ prun2.T.active = [] ∧ prun2.T.stopped = false ∧ prun2.T.failedTasks = ∅ ∧ prun2.T.pend = ∅ := by
    decide +kernel
  obtain ⟨o1, o2, o3, o4, o5, o6⟩ := hov
  have hh := pair_hist
  have hm : pmid.busy = false := rfl
  generalize prun2 = R at *
  generalize pmid = Sm at *
  refine C44_successful_run_builds_everything exM_faithful hh pairCfg_groups (begun_step pairE Sm hm) hrun ⟨o1, Or.inl o2, o3⟩ o4 o5
    (foundCycle := fun _ => false) ?_ (by simp)
  rintro ⟨n, hn, _⟩
  rw [o6] at hn; simp at hn

end Verif.Build
