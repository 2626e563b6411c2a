import Verif.Whole.Correct
import Verif.Build.ComposeWitness

/-!
# C46–C48: concrete cases
-/

namespace Verif.Whole

open Verif.Build Verif.Pool

theorem exE_layered : Layered exE exCfg (fun v => if v = 2 then 2 else if v = 1 then 1 else 0) := by
  refine ⟨fun n sc h g c hc => ?_, fun n c hc => by simp [exCfg] at hc, fun n m hm => by simp [exCfg] at hm; rw [hm]⟩
  unfold exE at h
  split at h
  · cases h
  · split at h
    · rename_i h1
      simp only [Option.some.injEq] at h
      subst h
      simp [Scan.result, Leaf.children] at hc
      subst hc h1; decide
    · rename_i h0 h1
      have hn : n = 2 := by revert h0 h1; revert n; decide
      simp only [Option.some.injEq] at h
      subst h hn
      by_cases hg : (g 1).getD 0 < 10
      · simp [Scan.result, Leaf.children, hg] at hc
        rcases hc with rfl | rfl <;> decide
      · simp [Scan.result, Leaf.children, hg] at hc
        subst hc; decide

/-- For every `N`, there is a complete build with `-jN` of the example after its history in which nothing fails, to which all theorems of C46 apply; it gives the target
the content 44 (before the build it is 212). -/
theorem C46_nonvacuous (N : Nat) : ∃ s, Quiet exM exE exCfg [2] (begun mid) N s ∧ Runs exM exE exCfg [2] (begun mid) N s ∧ (∀ p ∈ s.pcs, p = .halted) ∧
    s.pcs ≠ [] ∧ s.tm.S.fs 2 = some 44 ∧ mid.fs 2 = some 212 := by
  have hm : mid.busy = false := rfl
  obtain ⟨s, -, hq, hh, -, hc⟩ := C46_can_always_be_finished exM_faithful ex_hist exCfg_groups exE_layered (begun_step exE mid hm) (orig := [2]) (N := N) .init
  refine ⟨s, hq, hq.runs, hh, hq.reach.pcs_ne, ?_, by decide +kernel⟩
  obtain ⟨c1, -, c2, -⟩ := C44_nonvacuous
  rw [← c2]
  refine Clean.unique exE_wf (hc 2 (by simp)) (c1.congr fun v hv => ?_)
  rw [C47_sources_are_never_touched exCfg_groups (begin_running (begun_step exE mid hm)) hq.runs hv]
  have : ∀ v : Fin 4, exE v = none → v = 0 ∨ v = 3 := by decide
  rcases this v hv with rfl | rfl <;> decide +kernel

end Verif.Whole

namespace Verif.TM

/-- no alternative targets -/
def Lab.noAlt {V : Type} : Lab V → Prop
  | .consider alt _ _ _ _ => alt = []
  | _ => True

instance {V : Type} [DecidableEq V] (l : Lab V) : Decidable l.noAlt := by
  cases l <;> unfold Lab.noAlt <;> infer_instance

/-- C48 on a run for target 1 of the diamond: 1 and 3 are built, 2 is not wanted (nor is 0). -/
theorem C48_nonvacuous : ∃ S, Reach diamond (AltLab diamond (fun _ => False)) [1] S ∧ S.over ∧ S.started = [1, 3] ∧
    Wanted diamond (fun _ => False) [1] S 3 ∧ ¬ Wanted diamond (fun _ => False) [1] S 2 := by
  obtain ⟨S, h, h1, h2, h3⟩ : ∃ S, Reach diamond (fun _ l => l.noSE diamond ∧ l.noAlt) [1] S ∧
      (S.over ∧ S.started = [1, 3] ∧ S.seen = fun x => if x = 1 then {3} else ∅) :=
    exists_run (C := diamond) (orig := [1]) [cons [3] [3], cons [] [] .start, .finish 3 none [1], cons [3] [] .start, .finish 1 none []]
      (fun S => S.over ∧ S.started = [1, 3] ∧ S.seen = fun x => if x = 1 then {3} else ∅) (by decide +kernel)
  refine ⟨S, Steps.mono (P' := AltLab diamond (fun _ => False)) ?_ h, h1, h2, ?_, ?_⟩
  · rintro S l hl
    refine ⟨hl.1, ?_⟩
    rintro alt scan pushed fate post rfl x hx
    rw [show alt = [] from hl.2] at hx; simp at hx
  · exact .dep (.top (x := 1) (by simp)) (by rw [h3]; simp)
  · have : ∀ x, Wanted diamond (fun _ => False) [1] S x → x = 1 ∨ x = 3 := by
      intro x hx
      induction hx with
      | top h => left; simpa using h
      | alt h => exact h.elim
      | dep _ h ih => right; rw [h3] at h; simp only at h; split at h <;> simp at h; exact h
      | tgt _ h ih => simp [diamond, plainCfg] at h; rw [h]; exact ih
      | pre _ h ih => simp [diamond, plainCfg] at h
      | se _ h ih => simp [diamond, plainCfg] at h
    intro hw
    rcases this 2 hw with h | h <;> revert h <;> decide

end Verif.TM
