import Verif.Script.DryRun
import Verif.Build.ComposeWitness

/-!
# C63: `scons -n` on the example project of C44
-/

namespace Verif.Build

open Verif.Sig

section
variable {k : Nat}

/-- Executable version of `NStep`, without failures. -/
def nexec (D : Desc (Fin k) Nat Nat) (C : TM.Cfg (Fin k)) (X : CSt (Fin k) Nat Nat Nat) : Cmd k → Option (CSt (Fin k) Nat Nat Nat)
  | .go pushed post =>
    match TM.nextCandidate X.T [] with
    | none => none
    | some (_, n) =>
      let scan := TM.Scan.ok (X.kidsOf D C n)
      match TM.returned C X.T [] scan pushed with
      | none => (TM.step C X.T (.consider [] scan pushed (.internal none) post)).map fun T' => ⟨T', X.S, X.scanned D C n scan⟩
      | some n' =>
        if n' = n then
          if (D n).isNone then
            (TM.step C X.T (.consider [] scan pushed (.internal none) post)).map fun T' => ⟨T', X.S.effSource n, X.scanned D C n scan⟩
          else if ∀ t ∈ C.targets n, (X.leafOf D t).isSome then
            if (X.S.checkAll exM (X.lf D) (C.targets n)).2 = true then
              (TM.step C X.T (.consider [] scan pushed (.internal none) post)).map fun T' =>
                ⟨T', (X.S.checkAll exM (X.lf D) (C.targets n)).1.dryCurrent (C.targets n), X.scanned D C n scan⟩
            else
              (TM.step C X.T (.consider [] scan pushed .start post)).map fun T' => ⟨T', (X.S.checkAll exM (X.lf D) (C.targets n)).1, X.scanned D C n scan⟩
          else none
        else none
  | .fin n post =>
    (TM.step C X.T (.finish n none post)).map fun T' =>
      ⟨T', X.S.dryBuilt exM (fun t => X.T.state t = .executing) (C.targets n), fun x => if X.forgets C n x then none else X.memo x⟩

theorem nexec_sound {D : Desc (Fin k) Nat Nat} {C : TM.Cfg (Fin k)} {X X' : CSt (Fin k) Nat Nat Nat} {c : Cmd k} (h : nexec D C X c = some X') :
    ∃ l, l.noIgnore ∧ NStep exM D C X l X' := by
  cases c with
  | go pushed post =>
    simp only [nexec] at h
    split at h
    · cases h
    rename_i T1 n hnc
    have hok : X.scanOK D C n (.ok (X.kidsOf D C n)) := Or.inr rfl
    split at h
    · rename_i hr
      rw [Option.map_eq_some_iff] at h
      obtain ⟨T', hT, rfl⟩ := h
      refine ⟨_, ?_, .walk hT hnc hok hr⟩; trivial
    · rename_i n' hr
      split at h
      case isFalse => cases h
      rename_i e; subst e
      split at h
      · rename_i hD
        rw [Option.map_eq_some_iff] at h
        obtain ⟨T', hT, rfl⟩ := h
        refine ⟨_, ?_, .source hT hok hr (Option.isNone_iff_eq_none.1 hD)⟩; trivial
      · split at h
        case isFalse => cases h
        rename_i hl
        have hl := CSt.lf_leaves hl
        split at h
        · rename_i hu
          rw [Option.map_eq_some_iff] at h
          obtain ⟨T', hT, rfl⟩ := h
          refine ⟨_, ?_, .current hT hok hr hl hu⟩; trivial
        · rename_i hu
          rw [Option.map_eq_some_iff] at h
          obtain ⟨T', hT, rfl⟩ := h
          refine ⟨_, ?_, .announce hT hok hr hl (by simpa using hu)⟩; trivial
  | fin n post =>
    simp only [nexec] at h
    rw [Option.map_eq_some_iff] at h
    obtain ⟨T', hT, rfl⟩ := h
    refine ⟨_, ?_, .finish hT⟩; trivial

/-- A list of commands. -/
def nexecs (D : Desc (Fin k) Nat Nat) (C : TM.Cfg (Fin k)) : CSt (Fin k) Nat Nat Nat → List (Cmd k) → Option (CSt (Fin k) Nat Nat Nat)
  | X, [] => some X
  | X, c :: cs => (nexec D C X c).bind fun X' => nexecs D C X' cs

theorem nexecs_sound {D : Desc (Fin k) Nat Nat} {C : TM.Cfg (Fin k)} {X X' X0 : CSt (Fin k) Nat Nat Nat} {cs : List (Cmd k)} (h : nexecs D C X cs = some X')
    (h0 : NSteps exM D C X0 X) : NSteps exM D C X0 X' := by
  induction cs generalizing X with
  | nil => simp only [nexecs, Option.some.injEq] at h; subst h; exact h0
  | cons c cs ih =>
    simp only [nexecs, Option.bind_eq_some_iff] at h
    obtain ⟨X1, h1, h2⟩ := h
    obtain ⟨l, a1, a2⟩ := nexec_sound h1
    exact ih h2 (.tail l h0 a1 a2)

end

/-- `scons -n` after file 0 was changed: node 1 is announced; node 2, made from it, is not. -/
def ncmds1 : List (Cmd 4) := [.go [1, 3] [], .go [] [], .go [0] [], .go [] [1], .go [] [], .fin 1 [2], .go [] []]

theorem n1_some : (nexecs exE exCfg (CSt.init [2] (begun mid)) ncmds1).isSome = true := by decide +kernel

/-- Its end. -/
def n1 : CSt (Fin 4) Nat Nat Nat := (nexecs exE exCfg (CSt.init [2] (begun mid)) ncmds1).get n1_some

theorem n1_eq : nexecs exE exCfg (CSt.init [2] (begun mid)) ncmds1 = some n1 := (Option.some_get n1_some).symm

/-- The first run, and then the user deletes the intermediate file 1. -/
def lost : St (Fin 4) Nat Nat Nat := { ended run1.S with fs := fun x => if x = 1 then none else (ended run1.S).fs x }

theorem lost_hist : Hist exM exE lost := by
  have h0 : Hist exM exE exF := .init exE _ exE_wf
  have hrun := (cexecs_sound run1_eq ⟨.refl _, .refl _, fun _ => .refl _⟩).1
  have hidle : run1.T.active = [] := by decide +kernel
  have hbusy : run1.S.busy = true := by decide +kernel
  have hnone : ∀ t : Fin 4, (run1.S.running t).isNone = true := by decide +kernel
  unfold lost
  generalize run1 = R at *
  have h1 : Hist exM exE (ended R.S) := .build exCfg [2] h0 exCfg_groups (begun_step exE exF rfl) hrun hidle (ended_step exE _ hbusy hnone)
  exact .edit 1 none h1 (Or.inl rfl) (.edit _ 1 none rfl)

/-- `scons -n` then: both 1 and 2 are announced. -/
def ncmds2 : List (Cmd 4) := [.go [1, 3] [], .go [] [], .go [0] [], .go [] [1], .go [] [], .fin 1 [2], .go [] [], .fin 2 []]

theorem n2_some : (nexecs exE exCfg (CSt.init [2] (begun lost)) ncmds2).isSome = true := by decide +kernel

/-- Its end. -/
def n2 : CSt (Fin 4) Nat Nat Nat := (nexecs exE exCfg (CSt.init [2] (begun lost)) ncmds2).get n2_some

theorem n2_eq : nexecs exE exCfg (CSt.init [2] (begun lost)) ncmds2 = some n2 := (Option.some_get n2_some).symm

/-- The real run then: 1 is made again, with the same content, and 2 is up to date. -/
def rcmds2 : List (Cmd 4) := [.go [1, 3] [], .go [] [], .go [0] [], .go [] [1], .go [] [], .fin 1 [2], .go [] []]

theorem r2_some : (cexecs exE exCfg (CSt.init [2] (begun lost)) rcmds2).isSome = true := by decide +kernel

/-- Its end. -/
def r2 : CSt (Fin 4) Nat Nat Nat := (cexecs exE exCfg (CSt.init [2] (begun lost)) rcmds2).get r2_some

theorem r2_eq : cexecs exE exCfg (CSt.init [2] (begun lost)) rcmds2 = some r2 := (Option.some_get r2_some).symm

/-- `scons -n` after the second run. -/
def ncmds3 : List (Cmd 4) := [.go [1] [], .go [0] [], .go [] [1], .go [] [2], .go [] []]

theorem n3_some : (nexecs exE exCfg (CSt.init [2] (begun (ended run2.S))) ncmds3).isSome = true := by decide +kernel

/-- Its end. -/
def n3 : CSt (Fin 4) Nat Nat Nat := (nexecs exE exCfg (CSt.init [2] (begun (ended run2.S))) ncmds3).get n3_some

theorem n3_eq : nexecs exE exCfg (CSt.init [2] (begun (ended run2.S))) ncmds3 = some n3 := (Option.some_get n3_some).symm

/-- A run is over, nothing failed, and no node is left waiting. -/
def Complete (X : CSt (Fin 4) Nat Nat Nat) : Prop :=
  X.T.cands = [] ∧ X.T.tops = [] ∧ X.T.active = [] ∧ X.T.stopped = false ∧ X.T.failedTasks = ∅ ∧ X.T.pend = ∅

instance (X : CSt (Fin 4) Nat Nat Nat) : Decidable (Complete X) := by unfold Complete; infer_instance

/-- **C63, counterexample: `scons -n` announces too little.**  After file 0 was changed, the dry run for target 2 ends normally and announces only 1; the build that follows executes the actions
of 1 and of 2. -/
theorem C63_counterexample_understates : ∃ (D : Desc (Fin 4) Nat Nat) (C : TM.Cfg (Fin 4)) (S : St (Fin 4) Nat Nat Nat) (X Y : CSt (Fin 4) Nat Nat Nat),
    Hist exM D S ∧ TM.Groups C (fun n => (D n).isSome) ∧ Step exM D S .begin (begun S) ∧ NSteps exM D C (CSt.init [2] (begun S)) X ∧ Complete X ∧
    CSteps exM D C NoIgnore (CSt.init [2] (begun S)) Y ∧ Complete Y ∧ (X.T.state 2).done ∧ 2 ∉ X.T.started ∧ 2 ∈ Y.T.started :=
  ⟨exE, exCfg, mid, n1, run2, ex_hist, exCfg_groups, begun_step exE mid rfl, nexecs_sound n1_eq (.refl _), by decide +kernel,
    (cexecs_sound run2_eq ⟨.refl _, .refl _, fun _ => .refl _⟩).2.1, by decide +kernel, by
      have h : n1.T.state 2 = .upToDate := by decide +kernel
      rw [h]; trivial, by decide +kernel, by decide +kernel⟩

/-- **C63, counterexample: `scons -n` announces too much.**  After the intermediate file 1 was deleted, the dry run announces 1 and 2; the build that follows makes 1 again, with the same content,
and does not execute the action of 2. -/
theorem C63_counterexample_overstates : ∃ (D : Desc (Fin 4) Nat Nat) (C : TM.Cfg (Fin 4)) (S : St (Fin 4) Nat Nat Nat) (X Y : CSt (Fin 4) Nat Nat Nat),
    Hist exM D S ∧ TM.Groups C (fun n => (D n).isSome) ∧ Step exM D S .begin (begun S) ∧ NSteps exM D C (CSt.init [2] (begun S)) X ∧ Complete X ∧
    CSteps exM D C NoIgnore (CSt.init [2] (begun S)) Y ∧ Complete Y ∧ 2 ∈ X.T.started ∧ (Y.T.state 2).done ∧ 2 ∉ Y.T.started :=
  ⟨exE, exCfg, lost, n2, r2, lost_hist, exCfg_groups, begun_step exE lost rfl, nexecs_sound n2_eq (.refl _), by decide +kernel,
    (cexecs_sound r2_eq ⟨.refl _, .refl _, fun _ => .refl _⟩).2.1, by decide +kernel, by decide +kernel, by
      have h : r2.T.state 2 = .upToDate := by decide +kernel
      rw [h]; trivial, by decide +kernel⟩

/-- The hypotheses of C63 hold: for the exact statement at node 1, announced and executed after the change of file 0; and for the silent dry run after the second run. -/
theorem C63_nonvacuous : ((∃ p ∈ exCfg.targets 1, p ∈ run2.T.started) ↔ (1 : Fin 4) ∈ n1.T.started) ∧ (1 : Fin 4) ∈ n1.T.started ∧ (run3.T.started = [] ∧ run3.S.fs = run2.S.fs) := by
  have hn1 := nexecs_sound n1_eq (.refl _)
  have hc1 : Complete n1 := by decide +kernel
  have hs1 : n1.T.state 1 = .executed := by decide +kernel
  have hst : n1.T.started = [1] := by decide +kernel
  have hrun2 := (cexecs_sound run2_eq ⟨.refl _, .refl _, fun _ => .refl _⟩).2.1
  have hc2 : Complete run2 := by decide +kernel
  have hs2 : run2.T.state 1 = .executed := by decide +kernel
  have hh := ex_hist
  have hh2 : Hist exM exE (ended run2.S) := by
    have hrun := (cexecs_sound run2_eq ⟨.refl _, .refl _, fun _ => .refl _⟩).1
    have hbusy : run2.S.busy = true := by decide +kernel
    have hnone : ∀ t : Fin 4, (run2.S.running t).isNone = true := by decide +kernel
    have hh := ex_hist
    have hm : mid.busy = false := rfl
    generalize run2 = R at *
    generalize mid = Sm at *
    exact .build exCfg [2] hh exCfg_groups (begun_step exE Sm hm) hrun hc2.2.2.1 (ended_step exE _ hbusy hnone)
  have hn3 := nexecs_sound n3_eq (.refl _)
  have hc3 : Complete n3 := by decide +kernel
  have hst3 : n3.T.started = [] := by decide +kernel
  have hrun3 := (cexecs_sound run3_eq ⟨.refl _, .refl _, fun _ => .refl _⟩).2.2
  have hm : mid.busy = false := rfl
  have hz : (ended run2.S).busy = false := rfl
  have hfse : (ended run2.S).fs = run2.S.fs := rfl
  refine ⟨?_, by rw [hst]; simp, ?_⟩
  · clear hrun3 hn3 hc3 hst3 hh2 hz hfse
    generalize run2 = R2 at *
    generalize n1 = N at *
    generalize mid = Sm at *
    refine C63_exact_above_unannounced exM_faithful hh exCfg_groups (begun_step exE Sm hm) hn1 hc1.2.2.2.2.1 (by rw [hs1]; trivial) ?_ hrun2 hc2.2.2.2.2.1 (by rw [hs2]; trivial)
    intro p hp sc hsc c hc u hu
    simp only [exCfg, List.mem_singleton] at hp
    subst hp
    have hsc' : sc = .found { sources := [0], depends := [], implicit := [], ignore := [], action := 1 } := by
      simpa [exE] using hsc.symm
    subst hsc'
    have hc0 : c = 0 := by simpa [Scan.result, Leaf.children] using hc
    subst hc0
    have hu0 : u = 0 := by
      induction hu with
      | refl => rfl
      | tail _ h ih =>
        subst ih
        rcases h with ⟨sc, h, -⟩ | h | h
        · simp [exE] at h
        · simp [exCfg] at h
        · simpa [exCfg] using h
    rw [hu0, hst]; simp
  · clear hrun2 hn1 hc1 hs1 hs2 hst hh hc2
    rw [← hfse]
    generalize ended run2.S = E2 at *
    generalize run3 = R3 at *
    generalize n3 = N at *
    refine C63_nothing_announced_nothing_done exM_faithful hh2 exCfg_groups (begun_step exE _ hz) hn3 ⟨hc3.1, Or.inl hc3.2.1, hc3.2.2.1⟩ hc3.2.2.2.1 hc3.2.2.2.2.1
      (foundCycle := fun _ => false) ?_ hst3 (hrun3 _)
    rintro ⟨n, hn, _⟩
    rw [hc3.2.2.2.2.2] at hn; simp at hn

end Verif.Build
