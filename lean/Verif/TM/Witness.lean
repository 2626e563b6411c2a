import Verif.TM.Props2
import Verif.TM.Cycle

/-!
# Concrete runs

Non-vacuity: concrete runs (checked by evaluation in the kernel) that meet the hypotheses of the theorems in
`Props.lean`/`Props2.lean`; and the counterexamples to the full statements of C07 and C08.
These are tests of the hypotheses, not proofs of the properties.
-/

namespace Verif.TM

section
variable {V : Type} [DecidableEq V] [Fintype V]

instance (C : Cfg V) (s : V) : Decidable (C.isSE s) := by unfold Cfg.isSE; infer_instance

instance (C : Cfg V) (l : Lab V) : Decidable (l.noSE C) := by
  cases l with
  | consider alt scan pushed fate post =>
    cases scan with
    | raised =>
      exact decidable_of_iff (∀ x ∈ alt, ¬ C.isSE x) (by simp [Lab.noSE])
    | ok kids =>
      exact decidable_of_iff ((∀ x ∈ alt, ¬ C.isSE x) ∧ ∀ x ∈ kids, ¬ C.isSE x) (by simp [Lab.noSE])
  | _ => exact isTrue trivial

instance (C : Cfg V) (S : St V) (l : Lab V) : Decidable (l.scanGrows C S) := by
  cases l with
  | consider alt scan pushed fate post =>
    cases hn : nextCandidate S alt with
    | none => exact isTrue (by simp [Lab.scanGrows, hn])
    | some p =>
      obtain ⟨S1, n⟩ := p
      cases scan with
      | raised => exact isTrue (by simp [Lab.scanGrows])
      | ok kids =>
        refine decidable_of_iff (∀ c ∈ S.seen n, c ∈ C.prereqs n ++ kids) ?_
        constructor
        · intro h S1' n' kids' h1 h2
          rw [hn] at h1
          simp only [Option.some.injEq, Prod.mk.injEq] at h1
          cases h2
          rw [← h1.2]; exact h
        · intro h; exact h S1 n kids hn rfl
  | _ => exact isTrue trivial

instance (l : Lab V) : Decidable l.noIgnore := by
  unfold Lab.noIgnore; split <;> infer_instance

instance (l : Lab V) : Decidable l.stopOnly := by
  cases l with
  | consider alt scan pushed fate post =>
    cases hf : fate.failure with
    | none => exact isTrue (by simp [Lab.stopOnly, hf])
    | some m => exact decidable_of_iff (m = .stop) (by simp [Lab.stopOnly, hf])
  | finish n res post =>
    unfold Lab.stopOnly
    cases res with
    | none => exact isTrue (by simp)
    | some m => exact decidable_of_iff (m = .stop) (by simp)
  | _ => exact isTrue trivial

instance (l : Lab V) : Decidable l.noFail := by
  cases l with
  | consider alt scan pushed fate post =>
    cases scan with
    | raised => exact isFalse (by simp [Lab.noFail])
    | ok kids => exact decidable_of_iff (fate.failure = none) (by simp [Lab.noFail])
  | finish n res post => exact decidable_of_iff (res = none) (by simp [Lab.noFail])
  | _ => exact isTrue trivial

instance (l : Lab V) : Decidable l.raiseStops := by
  cases l with
  | consider alt scan pushed fate post =>
    cases scan with
    | raised =>
      cases fate with
      | exc m => exact decidable_of_iff (m = .stop) (by simp [Lab.raiseStops])
      | _ => exact isFalse (by simp [Lab.raiseStops])
    | ok kids => exact isTrue trivial
  | _ => exact isTrue trivial

instance (C : Cfg V) (S : St V) (l : Lab V) : Decidable (PlainLab C S l) := by unfold PlainLab; infer_instance
instance (C : Cfg V) (S : St V) (l : Lab V) : Decidable (StableLab C S l) := by unfold StableLab; infer_instance
instance (C : Cfg V) (S : St V) (l : Lab V) : Decidable (StableNoIgnore C S l) := by unfold StableNoIgnore; infer_instance
instance (C : Cfg V) (S : St V) (l : Lab V) : Decidable (StopLab C S l) := by unfold StopLab; infer_instance
instance (C : Cfg V) (S : St V) (l : Lab V) : Decidable (SELab C S l) := by unfold SELab; infer_instance
instance (S : St V) : Decidable S.over := by unfold St.over; infer_instance

/-- run and check a predicate on the labels -/
def checkRun (C : Cfg V) (P : St V → Lab V → Prop) [∀ S l, Decidable (P S l)] : St V → List (Lab V) → Option (St V)
  | S, [] => some S
  | S, l :: ls => if P S l then (step C S l).bind fun S' => checkRun C P S' ls else none

theorem Steps.head {C : Cfg V} {P : St V → Lab V → Prop} {S S' S'' : St V} {l : Lab V} (hP : P S l)
    (hs : step C S l = some S') (h : Steps C P S' S'') : Steps C P S S'' :=
  Steps.trans (.tail l (.refl _) hP hs) h

theorem checkRun_steps {C : Cfg V} {P : St V → Lab V → Prop} [∀ S l, Decidable (P S l)] :
    ∀ {ls : List (Lab V)} {S S' : St V}, checkRun C P S ls = some S' → Steps C P S S'
  | [], S, S', h => by simp only [checkRun, Option.some.injEq] at h; subst h; exact .refl _
  | l :: ls, S, S', h => by
    rw [checkRun] at h
    split at h
    · rename_i hl
      obtain ⟨S1, h1, h2⟩ := Option.bind_eq_some_iff.1 h
      exact Steps.head hl h1 (checkRun_steps h2)
    · cases h

/-- a run whose end satisfies `f` -/
theorem exists_run {C : Cfg V} {P : St V → Lab V → Prop} [∀ S l, Decidable (P S l)] {orig : List V} (ls : List (Lab V))
    (f : St V → Prop) [DecidablePred f] (h : (checkRun C P (St.init orig) ls).any (fun S => decide (f S)) = true) :
    ∃ S, Reach C P orig S ∧ f S := by
  cases hr : checkRun C P (St.init orig) ls with
  | none => rw [hr] at h; simp at h
  | some S =>
    rw [hr] at h
    exact ⟨S, checkRun_steps hr, by simpa using h⟩

/-- a numbering that decreases along the reported dependencies -/
def Ranked (S : St V) (r : V → Nat) : Prop := ∀ x y, y ∈ S.seen x → r y < r x

instance (S : St V) (r : V → Nat) : Decidable (Ranked S r) := by unfold Ranked; infer_instance

theorem acyclic_of_ranked {S : St V} {r : V → Nat} (h : Ranked S r) : Acyclic S := by
  intro x hx
  have : ∀ {a b}, Relation.TransGen (DependsOn S) a b → r b < r a := by
    intro a b hab
    induction hab with
    | single h1 => exact h _ _ h1
    | tail _ h1 ih => exact lt_trans (h _ _ h1) ih
  exact absurd (this hx) (lt_irrefl _)

end

/-- every node has its own executor; no prerequisites; side effects given -/
def plainCfg {n : Nat} (se : Fin n → List (Fin n)) : Cfg (Fin n) where
  targets := fun x => [x]
  actTargets := fun x => [x]
  prereqs := fun _ => []
  sideEffects := se

theorem plainCfg_project {n : Nat} {se : Fin n → List (Fin n)} {orig : List (Fin n)}
    (h : ∀ x ∈ orig, ¬ (plainCfg se).isSE x) : Project (plainCfg se) orig where
  wf := ⟨fun n => by simp [plainCfg], fun n m hm => by simp [plainCfg] at hm ⊢; exact hm, fun n m hm => hm,
    fun n => by simp [plainCfg]⟩
  iso := ⟨fun n hn m hm => by simp [plainCfg] at hm; rw [hm]; exact hn, fun n c hc => by simp [plainCfg] at hc⟩
  top := h

/-- Abbreviation: a loop iteration with no alternative targets. -/
def cons {n : Nat} (kids pushed : List (Fin n)) (fate : Fate := .start) (post : List (Fin n) := []) : Lab (Fin n) :=
  .consider [] (.ok kids) pushed fate post

/-! ## A diamond 0 → {1, 2} → 3, built with two jobs -/

def diamond : Cfg (Fin 4) := plainCfg fun _ => []

def diamondRun : List (Lab (Fin 4)) :=
  [ cons [1, 2] [1, 2],          -- 0: pushes 1, 2, waits
    cons [3] [3],                -- 2: pushes 3, waits
    cons [] [] .start,           -- 3: ready, given to a job
    cons [3] [],                 -- 1: waits for 3
    .finish 3 none [2, 1],       -- 3 done, both parents released
    cons [3] [] .start,          -- 1 started
    cons [3] [] .start,          -- 2 started: two jobs
    .finish 2 none [],
    .finish 1 none [0],
    cons [1, 2] [] .start,
    .finish 0 none [] ]

theorem diamond_project : Project diamond [0] := plainCfg_project (by decide)

/-- Hypotheses of C01 (whole run), C02, C05 hold at the end of this run, in which all four nodes were started. -/
example : ∃ S, Reach diamond (StableNoIgnore diamond) [0] S ∧ S.over ∧ S.stopped = false ∧ S.failedTasks = ∅ ∧
    S.started = [0, 2, 1, 3] ∧ (3 ∈ S.seen 1) ∧ Acyclic S := by
  obtain ⟨S, h, h1, h2, h3, h4, h5, h6⟩ := exists_run (C := diamond) (P := StableNoIgnore diamond) (orig := [0]) diamondRun
    (fun S => S.over ∧ S.stopped = false ∧ S.failedTasks = ∅ ∧ S.started = [0, 2, 1, 3] ∧ (3 ∈ S.seen 1) ∧
      Ranked S (fun x => 4 - x.val)) (by decide +kernel)
  exact ⟨S, h, h1, h2, h3, h4, h5, acyclic_of_ranked h6⟩

/-- … the same run meets the label predicates of C07 and C08 (there are no side effects). -/
example : ∃ S, Reach diamond (StopLab diamond) [0] S ∧ S.over ∧ Acyclic S := by
  obtain ⟨S, h, h1, h6⟩ := exists_run (C := diamond) (P := StopLab diamond) (orig := [0]) diamondRun
    (fun S => S.over ∧ Ranked S (fun x => 4 - x.val)) (by decide +kernel)
  exact ⟨S, h, h1, acyclic_of_ranked h6⟩

/-- Half-way: nodes 1 and 2 are outstanding together (C08 quantifies over such pairs; without common side effects this
is allowed). -/
example : ∃ S, Reach diamond (SELab diamond) [0] S ∧ S.active = [2, 1] := by
  exact exists_run (C := diamond) (P := SELab diamond) (orig := [0]) (diamondRun.take 7) _ (by decide +kernel)

/-! ## Failure of 3's sibling with `-k` (C03, C10) -/

/-- 0 → {1, 2}, 2 → 3; 3 fails; 1 is still built, 0 and 2 are not. -/
def keepRun : List (Lab (Fin 4)) :=
  [ cons [1, 2] [1, 2],
    cons [3] [3],
    cons [] [] .start,
    .finish 3 (some .keepGoing) [],
    cons [] [] .start,
    .finish 1 none [0],         -- 0's reference count reaches 0: pushed, but it is FAILED already
    cons [1, 2] [] ]

example : ∃ S, Reach diamond (StableNoIgnore diamond) [0] S ∧ S.over ∧ S.stopped = false ∧ S.failedTasks = {3} ∧
    S.started = [1, 3] ∧ S.state 0 = .failed ∧ S.state 1 = .executed ∧ S.state 2 = .failed ∧ 3 ∈ S.seen 2 ∧ Acyclic S := by
  obtain ⟨S, h, h1, h2, h3, h4, h5, h6, h7, h8, h9⟩ := exists_run (C := diamond) (P := StableNoIgnore diamond) (orig := [0]) keepRun
    (fun S => S.over ∧ S.stopped = false ∧ S.failedTasks = {3} ∧
    S.started = [1, 3] ∧ S.state 0 = .failed ∧ S.state 1 = .executed ∧ S.state 2 = .failed ∧ 3 ∈ S.seen 2 ∧
      Ranked S (fun x => 4 - x.val)) (by decide +kernel)
  exact ⟨S, h, h1, h2, h3, h4, h5, h6, h7, h8, acyclic_of_ranked h9⟩

/-! ## Failure without `-k`: stop (C04) -/

example : ∃ S, Reach diamond (StopLab diamond) [0] S ∧ S.stopped = true ∧ S.active = [1] := by
  exact exists_run (C := diamond) (P := StopLab diamond) (orig := [0])
    [cons [1, 2] [1, 2], cons [] [] .start, cons [] [] .start, .finish 2 (some .stop) []] _ (by decide +kernel)

/-! ## A real cycle 0 → 1 → 2 → 1 (C06) -/

/-- Nothing failed, the walk is over, 0 was not brought up to date; hence (C06) `cleanup` raises. -/
example : ∃ S, Reach diamond (PlainLab diamond) [0] S ∧ S.over ∧ S.stopped = false ∧ S.failedTasks = ∅ ∧ ¬ (S.state 0).done := by
  exact exists_run (C := diamond) (P := PlainLab diamond) (orig := [0])
    [cons [1] [1], cons [2] [2], cons [1] []] _ (by decide +kernel)

/-! ## C07: false cycle reports (findings 1, 10, 12) -/

def six : Cfg (Fin 6) := plainCfg fun _ => []

/-- **C07 is false with `-k`** (finding 1): requested 0, 1; 0 → 2; 1 → {3, 4}; 4 → 3; 3 → 5 → 2; 2 fails under `-k`; acyclic dependencies, the walk is over, `find_cycle` finds nothing anywhere, yet
`cleanup()` raises. -/
theorem C07_counterexample_keep_going : ∃ S, Reach six (StableNoIgnore six) [0, 1] S ∧ S.over ∧ Acyclic S ∧
    cleanupRaises S (fun _ => false) := by
  obtain ⟨S, h, h1, h2, h3⟩ := exists_run (C := six) (P := StableNoIgnore six) (orig := [0, 1])
    [ cons [2] [2], cons [] [] .start, .finish 2 (some .keepGoing) [],
      cons [3, 4] [4, 3], cons [5] [5], cons [2] [], cons [3] [] ]
    (fun S => S.over ∧ Ranked S (fun x => [1, 4, 0, 2, 3, 1].getD x.val 0) ∧ ∃ n ∈ S.pend, S.state n ≠ .executed) (by decide +kernel)
  obtain ⟨n, h4, h5⟩ := h3
  exact ⟨S, h, h1, acyclic_of_ranked h2, n, h4, Or.inr h5⟩

/-- **C07 is false with `-i`** (finding 10): 0 → {1, 2}, 2 → 1, the scan of 1 raises and is ignored: 1 stays PENDING for
ever, so do its dependents, and `cleanup()` raises although there is no cycle. -/
theorem C07_counterexample_ignore : ∃ S, Reach six (StableLab six) [0] S ∧ S.over ∧ Acyclic S ∧
    cleanupRaises S (fun _ => false) := by
  obtain ⟨S, h, h1, h2, h3⟩ := exists_run (C := six) (P := StableLab six) (orig := [0])
    [ cons [1, 2] [2, 1], .consider [] .raised [] (.exc .ignore) [], cons [1] []]
    (fun S => S.over ∧ Ranked S (fun x => [6, 0, 1].getD x.val 0) ∧ ∃ n ∈ S.pend, S.state n ≠ .executed) (by decide +kernel)
  obtain ⟨n, h4, h5⟩ := h3
  exact ⟨S, h, h1, acyclic_of_ranked h2, n, h4, Or.inr h5⟩

/-- nodes 1 and 2 have the common side effect 5 -/
def shared : Cfg (Fin 6) := plainCfg fun x => if x = 1 ∨ x = 2 then [5] else []

theorem shared_project (orig : List (Fin 6)) (h : ∀ x ∈ orig, x ≠ 5) : Project shared orig := by
  refine plainCfg_project ?_
  intro x hx hse
  obtain ⟨t, ht⟩ := hse
  simp only [plainCfg] at ht
  split at ht <;> simp at ht
  exact h x hx ht

/-- **C07 is false in stop mode with side effects** (finding 12): 0 → {1, 2, 3}, 3 → 2; 1 and 2 share a side effect, 2 waits for it
while 1 runs; 1 fails without `-k`. -/
theorem C07_counterexample_side_effect : ∃ S, Reach shared (fun S l => StableNoIgnore shared S l ∧ l.stopOnly) [0] S ∧
    S.over ∧ Acyclic S ∧ cleanupRaises S (fun _ => false) := by
  obtain ⟨S, h, h1, h2, h3⟩ := exists_run (C := shared) (P := fun S l => StableNoIgnore shared S l ∧ l.stopOnly) (orig := [0])
    [ cons [1, 2, 3] [3, 2, 1], cons [] [] .start, cons [] [], cons [2] [], .finish 1 (some .stop) []]
    (fun S => S.over ∧ Ranked S (fun x => [6, 0, 0, 5, 0, 0].getD x.val 0) ∧ ∃ n ∈ S.pend, S.state n ≠ .executed) (by decide +kernel)
  obtain ⟨n, h4, h5⟩ := h3
  exact ⟨S, h, h1, acyclic_of_ranked h2, n, h4, Or.inr h5⟩

/-! ## C08 -/

/-- C08's hypotheses are met by a run in which two tasks with a common side effect are serialised. -/
example : ∃ S, Reach shared (SELab shared) [0] S ∧ S.over ∧ S.started = [0, 2, 1] := by
  exact exists_run (C := shared) (P := SELab shared) (orig := [0])
    [ cons [1, 2] [2, 1], cons [] [] .start, cons [] [], .finish 1 none [2], cons [] [] .start, .finish 2 none [0, 2],
      cons [] [], cons [1, 2] [] .start, .finish 0 none [] ] _ (by decide +kernel)

/-- nodes 1, 2, 3 have the common side effect 5 -/
def shared3 : Cfg (Fin 6) := plainCfg fun x => if x = 1 ∨ x = 2 ∨ x = 3 then [5] else []

/-- **C08 is false when a scan raises under `-k`** (finding 13): 1 runs, the scan of 2 raises, `postprocess` resets the busy side
effect, 3 starts: 1 and 3 run together. -/
theorem C08_counterexample_raise : ∃ S, Reach shared3 (StableNoIgnore shared3) [0] S ∧ S.active = [3, 1] ∧
    5 ∈ shared3.sideEffects 1 ∧ 5 ∈ shared3.sideEffects 3 := by
  obtain ⟨S, h, h1, h2⟩ := exists_run (C := shared3) (P := StableNoIgnore shared3) (orig := [0])
    [ cons [1, 2, 3] [3, 2, 1], cons [] [] .start, .consider [] .raised [] (.exc .keepGoing) [], cons [] [] .start ]
    (fun S => S.active = [3, 1] ∧ True) (by decide +kernel)
  exact ⟨S, h, h1, by decide, by decide⟩

/-- **C08 is false when the side-effect file is itself depended upon** (finding 11): requested 5 (the side effect) and 0; 2 fails under `-k`
while 5 waits for 2 … 5 is marked FAILED although 1 is still running. -/
theorem C08_counterexample_requested : ∃ S, Steps shared3 (fun S l => Lab.scanGrows shared3 S l ∧ Lab.noIgnore l)
    (St.init [5, 0]) S ∧ S.active = [3, 1] := by
  exact exists_run (C := shared3) (P := fun S l => Lab.scanGrows shared3 S l ∧ Lab.noIgnore l) (orig := [5, 0])
    [ cons [4] [4],                       -- 5 → 4
      cons [] [] .start,                  -- 4 runs
      cons [1, 2, 3] [3, 2, 1],           -- 0
      cons [] [] .start,                  -- 1 runs: 5 EXECUTING
      .finish 4 (some .keepGoing) [],     -- 4 fails: will_not_build marks 5 FAILED
      cons [4] [],                        -- 2 depends on the failed 4 as well
      cons [] [] .start ] _ (by decide +kernel)

end Verif.TM
