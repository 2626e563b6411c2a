import Verif.Sig.Drift

/-!
# Concrete cases and counterexamples for the decision subsystem
-/

namespace Verif.Sig

/-! ## Counterexample to C16 and C21: a node that is both `Depends()` and `Ignore()` -/

/-- Nodes: 0 source, 1 target, 2 explicit dependency that is also ignored, 3 an implicit dependency.  Contents 10·v+1, hash = identity. -/
def diW (st : Fin 4 → Entry (Fin 4) Nat) : World (Fin 4) Nat Nat where
  content := fun v => some (10 * v.val + 1)
  mtime := fun v => 100 + v.val
  now := 1000
  maxDrift := -1
  stored := st
  hash := id
  nofile := 0
  size := fun _ => 1

/-- `Depends(t, two); Ignore(t, two)`. -/
def diT : Target (Fin 4) Nat :=
  { sources := [0], depends := [2], implicit := [3], ignore := [2], hasBuilder := true, actsig := 7 }

/-- What a build records for it. -/
def diB : BInfo (Fin 4) Nat := diT.binfo (fun c => (diW (fun _ => {})).freshInfo c (some ((diW (fun _ => {})).diskCsig c)))

def diW2 : World (Fin 4) Nat Nat := diW (fun x => if x = 1 then { binfo := diB } else {})

/-- **Finding (C16 false in general).**  `get_binfo` drops ignored nodes from `bdepends` but not from `bdependsigs`: with
`Depends(t, x)` and `Ignore(t, x)` the target is rebuilt in every run although nothing at all has changed. -/
theorem C16_counterexample_depends_and_ignore :
    RecordedBy (diW (fun _ => {})) diT (diW2.stored 1).binfo ∧ diT.sources.Nodup ∧
    (∀ c, diW2.content c = (diW (fun _ => {})).content c) ∧ InfosOK diW2 (fun _ => {}) ∧ DriftOK diW2 ∧
    (diW2.isUpToDate .content 1 diT (fun _ => {})).1 = false := by
  refine ⟨rfl, by decide, fun _ => rfl, ?_, ?_, by decide⟩
  · intro c k hk; cases hk
  · intro c k hk
    have : diW2.driftCsig c = none := by
      unfold World.driftCsig; simp [diW2, diW]
    rw [this] at hk; cases hk

/-- **Finding (C21 false in general).**  The same misalignment pairs names with the wrong records: the lookup for the implicit
dependency 3 yields the record of node 2. -/
theorem C21_counterexample_depends_and_ignore :
    (dictGet (dependencyMap diB) 3).map (·.csig) = some (some ((diW (fun _ => {})).diskCsig 2)) ∧
    (diW (fun _ => {})).diskCsig 2 ≠ (diW (fun _ => {})).diskCsig 3 := by decide

/-! ## The hypotheses of the theorems are satisfiable -/

/-- `Depends()` and `Ignore()` on different nodes. -/
def okT : Target (Fin 4) Nat :=
  { sources := [0], depends := [2], implicit := [3, 1], ignore := [1], hasBuilder := true, actsig := 7 }

def okB : BInfo (Fin 4) Nat := okT.binfo (fun c => (diW (fun _ => {})).freshInfo c (some ((diW (fun _ => {})).diskCsig c)))

def okW : World (Fin 4) Nat Nat := diW (fun x => if x = 1 then { binfo := okB } else {})

theorem okW_drift : DriftOK okW := by
  intro c k hk
  have : okW.driftCsig c = none := by
    unfold World.driftCsig; simp [okW, diW]
  rw [this] at hk; cases hk

/-- Non-vacuity of C16 for every decider. -/
example (d : Decider) (hd : d ≠ .timestampNewer) : (okW.isUpToDate d 1 okT (fun _ => {})).1 = true :=
  C16_null_build_partial (W1 := diW (fun _ => {})) d (by decide) (by decide) rfl rfl ⟨rfl, rfl⟩ (fun _ _ => rfl) (fun _ _ => rfl)
    (fun e => absurd e hd) (by decide) (by intro c k hk; cases hk) okW_drift

/-- Non-vacuity of C17: the dependency 3 was edited. -/
example : (({ okW with content := fun v => if v = 3 then some 99 else okW.content v } : World (Fin 4) Nat Nat).isUpToDate .content 1 okT (fun _ => {})).1 = false := by
  refine C17_every_change_triggers_a_rebuild (W1 := diW (fun _ => {})) (T1 := okT) rfl rfl rfl rfl (fun a b h => h) ?_ ?_
    (Or.inr (Or.inr (Or.inr ⟨2, 3, 3, rfl, rfl, by decide⟩)))
  · intro c k hk; cases hk
  · intro c k hk
    have : World.driftCsig ({ okW with content := fun v => if v = 3 then some 99 else okW.content v }) c = none := by
      unfold World.driftCsig; simp [okW, diW]
    rw [this] at hk; cases hk

/-- Non-vacuity of C21: the dependencies are looked up correctly although the list was reordered since. -/
example : (dictGet (dependencyMap okB) 3).map (·.csig) = some (some 31) ∧ (dictGet (dependencyMap okB) 1) = none := by decide

/-- Non-vacuity of C20: a world in which the stored signature is reused (it is older than the drift) and one in which it is not. -/
example : ((exW0.ev (.run 0 true 5000)).getCsig (fun _ => {}) 0).1 = 5 ∧ (exW0.ev (.run 0 true 5000)).driftCsig 0 = some 5 ∧
    (exW0.ev (.run 0 true 101)).driftCsig 0 = none := by decide

end Verif.Sig
