import Verif.Scan.Props
/-!
# Implicit dependencies: concrete cases and counterexamples
-/
namespace Verif.Scan.Witness

open Verif.Scan

/-- Nodes and scanners are numbers; scanner 0 is recursive, 1 is not. -/
def go (sc : Nat) (_ : Nat) : Bool := sc == 0

def env (found : Nat → List Nat) (sc : Nat → Nat) : Env Nat Nat :=
  { sel := fun s _ => some s, envSc := fun n => some (sc n), found := fun n _ => found n,
    recurse := fun s l => l.filter (go s) }

/-- 0 includes 1 and 2, 1 includes 0 and 3, 3 includes 1 and 2: circular. -/
def circular : Nat → List Nat
  | 0 => [1, 2]
  | 1 => [0, 3]
  | 3 => [1, 2]
  | _ => []

def circularEnv : Env Nat Nat := env circular (fun _ => 0)

example : getImplicitDeps circularEnv none 0 10 = some [1, 2, 3] := by decide +kernel

theorem circular_in : FindsIn circularEnv [0, 1, 2, 3] := by
  intro n sc x hx
  match n with
  | 0 => revert x; show ∀ x ∈ circular 0, x ∈ [0, 1, 2, 3]; decide
  | 1 => revert x; show ∀ x ∈ circular 1, x ∈ [0, 1, 2, 3]; decide
  | 2 => cases hx
  | 3 => revert x; show ∀ x ∈ circular 3, x ∈ [0, 1, 2, 3]; decide
  | n + 4 => cases hx

theorem circular_scanner (start n : Nat) : scannerOf circularEnv none start n = some 0 := rfl

/-- C38 applies to the circular graph. -/
example : ∃ n0 deps, (∀ n, n0 ≤ n → getImplicitDeps circularEnv none 0 n = some deps) ∧
    (∀ x, x ∈ deps ↔ Dep circularEnv (scannerOf circularEnv none 0) (fun sc x => go sc x = true) 0 x) ∧
    0 ∉ deps :=
  C38_transitive_closure_partial circularEnv go (fun _ _ => rfl) _ circular_in none 0
    (fun n n' sc sc' x h h' _ _ => by rw [circular_scanner] at h h'; cases h; cases h'; rfl)

/-- ... and what it says is not empty: 3 is found through 1. -/
example : Dep circularEnv (scannerOf circularEnv none 0) (fun sc x => go sc x = true) 0 3 :=
  ⟨by decide, 1, 0, .step .start rfl (by decide) rfl, rfl, by decide⟩

example : ∃ n0 res, (∀ n, n0 ≤ n → execScan circularEnv none [9] [2] [0, 3] n = some res) ∧ res.Nodup ∧
    ∀ x, x ∈ res ↔ x ∈ [2] ∨ x ∈ [9] ∨
      ∃ v ∈ [0, 3], Dep circularEnv (scannerOf circularEnv none v) (fun sc x => go sc x = true) v x :=
  C38_target_dependencies_partial circularEnv go (fun _ _ => rfl) _ circular_in none [0, 3] [9] [2]
    (fun v _ n n' sc sc' x h h' _ _ => by rw [circular_scanner] at h h'; cases h; cases h'; rfl) (by decide)

example : execScan circularEnv none [9] [2] [0, 3] 20 = some [2, 1, 3, 0, 9] := by decide +kernel

/-- 0 includes 1 and 2, both of which include 3; 3 includes 4. -/
def diamond : Nat → List Nat
  | 0 => [1, 2]
  | 1 => [3]
  | 2 => [3]
  | 3 => [4]
  | _ => []

/-- **C38, what fails** node 1 has a scanner that is not recursive (the default for
`Scanner()`), the others have one that is. Whether 3 is scanned depends on which of
1 and 2 comes first: 1 does, so 4 is not found, although the recursive scanner
found 3 in 2. With 1 and 2 swapped 4 is found. -/
theorem C38_counterexample_disagreement :
    Dep (env diamond fun n => if n = 1 then 1 else 0)
      (scannerOf (env diamond fun n => if n = 1 then 1 else 0) none 0) (fun sc x => go sc x = true) 0 4 ∧
    getImplicitDeps (env diamond fun n => if n = 1 then 1 else 0) none 0 10 = some [1, 2, 3] ∧
    getImplicitDeps (env diamond fun n => if n = 2 then 1 else 0) none 0 10 = some [1, 2, 3, 4] := by
  refine ⟨⟨by decide, 3, 0, ?_, rfl, by decide⟩, by decide +kernel, by decide +kernel⟩
  exact .step (n := 2) (sc := 0) (.step (n := 0) (sc := 0) .start rfl (by decide) rfl) rfl (by decide) rfl

/-- **C38 (each once), what fails** a file that includes a header twice: the header is
returned twice (the target's own list still has it once, see
`C38_target_dependencies_partial`). -/
theorem C38_counterexample_included_twice :
    getImplicitDeps (env (fun n => if n = 0 then [1, 1] else []) (fun _ => 0)) none 0 10 = some [1, 1] := by
  decide +kernel

end Verif.Scan.Witness
