import Verif.Repo.Props

/-! # Repositories: examples and counterexamples (C76) -/

namespace Verif.Repo.Ex

/-- Signatures that do not clash. -/
abbrev Sg := Option Nat ⊕ Nat

/-- An action adds its number, the contents of the dependencies and the number of the target. -/
def X : Tools Nat Nat Sg := ⟨fun a cs => some fun n => 1000 * a + (cs.map fun c => c.getD 0).sum + n, Sum.inl, Sum.inr, true⟩

theorem X_noClash : NoClash X := ⟨fun _ _ h => Sum.inl.inj h, fun _ _ h => Sum.inr.inj h⟩

/-- Task 0 makes 10 of 1; task 1 makes 11 of 10 and 2. -/
def P : Project Nat Nat :=
  { targets := fun g => match g with | 0 => [10] | 1 => [11] | _ => []
    deps := fun g _ => match g with | 0 => [1] | 1 => [10, 2] | _ => []
    act := fun g => g
    isLocal := fun _ => false
    precious := fun _ => false }

theorem P_one (n g g' : Nat) (h : n ∈ P.targets g) (h' : n ∈ P.targets g') : g = g' := by
  match g, g' with
  | 0, 0 => rfl
  | 1, 1 => rfl
  | 0, 1 => simp [P] at h h'; omega
  | 1, 0 => simp [P] at h h'; omega
  | g + 2, _ => simp [P] at h
  | _, g' + 2 => simp [P] at h'

theorem P_ready0 (v : Node → Option Nat) : ∀ k ∈ P.deps 0 v, ∀ g', k ∈ P.targets g' → g' ∈ ([] : List Nat) := by
  intro k hk g' hg'
  simp only [P, List.mem_singleton] at hk
  subst hk
  match g' with
  | 0 => simp [P] at hg'
  | 1 => simp [P] at hg'
  | g + 2 => simp [P] at hg'

theorem P_ready1 (v : Node → Option Nat) : ∀ k ∈ P.deps 1 v, ∀ g', k ∈ P.targets g' → g' ∈ [0] := by
  intro k hk g' hg'
  simp only [P, List.mem_cons, List.not_mem_nil, or_false] at hk
  rcases hk with rfl | rfl
  · have := P_one 10 g' 0 hg' (by decide)
    subst this; simp
  · match g' with
    | 0 => simp [P] at hg'
    | 1 => simp [P] at hg'
    | g + 2 => simp [P] at hg'

theorem P_wf : WellFormed P := ⟨P_one, fun _ _ _ _ _ => rfl⟩

theorem P_guarded : Guarded X P := Or.inr ⟨fun _ => rfl, fun _ _ _ h => by cases h⟩

/-- A source is edited. -/
def set (W : World Nat Sg) (n c : Nat) : World Nat Sg :=
  { W with loc := { W.loc with files := Function.update W.loc.files n (some c) }, share := Function.update W.share n none }

/-- Nothing. -/
def nil : World Nat Sg := ⟨⟨fun _ => none, fun _ => none⟩, [], fun _ => none⟩

/-- One task. -/
def go (P : Project Nat Nat) (g : Nat) (W : World Nat Sg) : World Nat Sg := (runTask X P g W).1

/-- The tree with the sources, and after the build. -/
def V : World Nat Sg := set (set nil 1 5) 2 6
/-- See `V`. -/
def V1 : World Nat Sg := go P 1 (go P 0 V)

theorem V_hist : Hist X V := .edit 2 6 (.edit 1 5 .init rfl) rfl

theorem V_run : Run X P V [1, 0] [1, 0] V1 :=
  .ok (b := true) (.ok (b := true) .start (by decide) (P_ready0 _) (Prod.ext rfl (by decide +kernel)))
    (by decide) (P_ready1 _) (Prod.ext rfl (by decide +kernel))

/-- A tree over that repository, with an edited copy of the source 2. -/
def W : World Nat Sg := set { nil with reps := [V1.loc] } 2 60
/-- After the build. -/
def W1 : World Nat Sg := go P 1 (go P 0 W)

theorem W_hist : Hist X W := .edit 2 60 (.repository .init (.build V_hist P_wf P_guarded V_run)) rfl

/-- The target 10 comes from the repository, 11 is built again, from the local 2 and the 10 of the repository. -/
theorem C76_nonvacuous : NoClash X ∧ WellFormed P ∧ Guarded X P ∧ Hist X W ∧ Run X P W [1, 0] [1] W1 ∧ W1.loc.files 10 = none ∧ W1.view 10 = some 15 ∧ W1.loc.files 11 = some 1086 ∧
    W1.reps[0]?.bind (fun T => T.files 11) = some 1032 :=
  ⟨X_noClash, P_wf, P_guarded, W_hist,
   .ok (b := true) (.ok (b := false) .start (by decide) (P_ready0 _) (Prod.ext rfl (by decide +kernel)))
    (by decide) (P_ready1 _) (Prod.ext rfl (by decide +kernel)),
   by decide +kernel, by decide +kernel, by decide +kernel, by decide +kernel⟩

/-- The hypotheses of `C76_built_elsewhere` can be met. -/
theorem C76_built_elsewhere_nonvacuous : ∃ U : World Nat Sg, Hist X U ∧ (∀ n, U.loc.files n = none) ∧ U.reps = [V1.loc] :=
  ⟨_, .repository .init (.build V_hist P_wf P_guarded V_run), fun _ => rfl, rfl⟩

/-! ## Precious local copies -/

/-- `Local` and `Precious` for 10. -/
def Q : Project Nat Nat := { P with isLocal := fun n => n == 10, precious := fun n => n == 10 }

/-- The user builds (10 becomes a hard link), edits 1 and builds again. -/
def B1 : World Nat Sg := go Q 0 { nil with reps := [V1.loc] }
/-- See `B1`. -/
def B2 : World Nat Sg := go Q 0 (set B1 1 7)
/-- Another user of the repository, after that. -/
def O1 : World Nat Sg := go P 0 ⟨⟨fun _ => none, fun _ => none⟩, B2.reps, fun _ => none⟩

/-- **C76** A target that is both `Local` and `Precious` is a hard link to the file in the repository and is not removed before it is built: the action writes into the repository.  The
signatures there are as before, so that everybody else, with the sources as they were (1 is 5), takes the changed file (17 instead of 15) for up to date. -/
theorem C76_repository_overwritten :
    (runTask X Q 0 { nil with reps := [V1.loc] }).2 = some false ∧ (runTask X Q 0 (set B1 1 7)).2 = some true ∧
    V1.loc.files 10 = some 15 ∧ B2.reps[0]?.bind (fun T => T.files 10) = some 17 ∧
    (runTask X P 0 ⟨⟨fun _ => none, fun _ => none⟩, B2.reps, fun _ => none⟩).2 = some false ∧ O1.view 1 = some 5 ∧ O1.view 10 = some 17 := by
  refine ⟨?_, ?_, ?_, ?_, ?_, ?_, ?_⟩ <;> decide +kernel

/-! ## Local copies and actions with several targets -/

/-- One action makes 10 and 12 of 1; both are `Local`. -/
def R : Project Nat Nat := { P with targets := fun g => if g = 0 then [10, 12] else [], isLocal := fun n => n == 10 || n == 12 }

/-- The repository, in which 12 was deleted. -/
def V2 : Tree Nat Sg :=
  let T := (go R 0 V).loc
  { T with files := Function.update T.files 12 none }

/-- Before the build. -/
def M : World Nat Sg := { nil with reps := [V2] }

/-- **C76** If one target of an action is found up to date in the repository and another is not, the first has become a hard link by the time the action is executed and is not removed, because
`exists()` remembers that it was not there: the action writes to the repository's file. -/
theorem C76_written_through : ∃ M1 : World Nat Sg, M1 = (R.targets 0).foldl (fun W' n => prepare R (M.loc.files n).isSome n W') (checkAll X R (recOf X R M 0) (R.targets 0) M).2 ∧
    (runTask X R 0 M).2 = some true ∧ M1.loc.files 10 = some 15 ∧ M1.share 10 = some 0 := by
  refine ⟨_, rfl, ?_, ?_, ?_⟩ <;> decide +kernel

/-! ## Only the first repository counts -/

/-- A repository built when 1 was 4. -/
def S1 : Tree Nat Sg := { (go P 0 (set nil 1 4)).loc with files := Function.update (go P 0 (set nil 1 4)).loc.files 1 none }

/-- **C76** A target is compared with the first repository that has the file only: 10 is built although the second repository has it up to date. -/
theorem C76_second_repository : (runTask X P 0 { nil with reps := [S1, V1.loc] }).2 = some true ∧ (runTask X P 0 { nil with reps := [V1.loc, S1] }).2 = some false := by
  constructor <;> decide +kernel

end Verif.Repo.Ex
