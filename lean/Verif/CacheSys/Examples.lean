import Verif.CacheSys.Second

/-! # Builds that share a cache directory: examples (C110) -/

namespace Verif.CacheSys.Ex

open Verif.CacheSys

/-- A command of an example. -/
inductive Mini where
  | edit (i : Nat) (n : Node) (c : Option Nat)
  | start (i : Nat) (fl : Flags)
  | begin (i g : Nat)
  | advance (i g : Nat)
  | finish (i : Nat)
  | kill (i : Nat)

abbrev Sig := Option Nat
abbrev Key := List Sig × Sig × Nat
abbrev X0 := Tools Nat Nat Sig Key
abbrev Sys0 := Sys Nat Nat Sig Key
abbrev Cmd0 := Cmd Nat Nat Key

def Mini.cmd (P : Project Nat Nat) : Mini → Cmd0
  | .edit i n c => .edit i n c
  | .start i fl => .start i P fl
  | .begin i g => .begin i g
  | .advance i g => .advance i g
  | .finish i => .finish i
  | .kill i => .kill i

def run (X : X0) (P : Project Nat Nat) (s : Sys0) (l : List Mini) : Sys0 := l.foldl (fun s m => step X s (m.cmd P)) s

/-- The checks of `Allowed` and, if `polite`, of `Polite`, for a project with the tasks 0 and 1. -/
def okB (polite : Bool) (P : Project Nat Nat) (s : Sys0) : Mini → Bool
  | .edit i _ _ => (s.tree i).sess.isNone
  | .start i fl => (s.tree i).sess.isNone && (!polite || !fl.force || (s.tree i).clean)
  | .begin i g => decide (g < 2) && match (s.tree i).sess with
    | none => true
    | some σ => (σ.jobs g).isNone && !σ.done.contains g &&
      (P.deps g (s.tree i).files).all fun k => [0, 1].all fun g' => !(P.targets g').contains k || σ.done.contains g'
  | .finish i => match (s.tree i).sess with
    | none => true
    | some σ => (σ.jobs 0).isNone && (σ.jobs 1).isNone
  | _ => true

def allOk (polite : Bool) (X : X0) (P : Project Nat Nat) : Sys0 → List Mini → Bool
  | _, [] => true
  | s, m :: l => okB polite P s m && allOk polite X P (step X s (m.cmd P)) l

/-- All builds are of `P`, and only the tasks 0 and 1 are at work. -/
def Narrow (P : Project Nat Nat) (s : Sys0) : Prop := ∀ i σ, (s.tree i).sess = some σ → σ.P = P ∧ ∀ g, 2 ≤ g → σ.jobs g = none

theorem narrow_put {P : Project Nat Nat} {s : Sys0} (h : Narrow P s) {i : Nat} {T : Tree Nat Nat Sig} (hT : ∀ σ, T.sess = some σ → σ.P = P ∧ ∀ g, 2 ≤ g → σ.jobs g = none) : Narrow P (s.put i T) := by
  intro k σ hs
  rw [Sys.put_tree] at hs
  split at hs
  · exact hT σ hs
  · exact h k σ hs

theorem advance_jobs {X : X0} {g : Nat} {j : Job Sig} {files : Node → Option Nat} {σ : Session Nat Nat Sig} {cache : Key → Option Nat} :
    (advanceTask X g j files σ cache).2.1.P = σ.P ∧ ∀ g', g' ≠ g → (advanceTask X g j files σ cache).2.1.jobs g' = σ.jobs g' := by
  obtain ⟨r, ph⟩ := j
  cases ph with
  | fetch rest got =>
    cases rest with
    | nil => exact ⟨rfl, fun g' h => by simp [advanceTask, Function.update_of_ne h]⟩
    | cons n rest =>
      simp only [advanceTask]
      split <;> exact ⟨rfl, fun g' h => by simp [Function.update_of_ne h]⟩
  | build =>
    simp only [advanceTask]
    split <;> exact ⟨rfl, fun g' h => by simp [Function.update_of_ne h]⟩
  | push rest =>
    cases rest <;> exact ⟨rfl, fun g' h => by simp [advanceTask, Function.update_of_ne h]⟩

theorem step_narrow {X : X0} {P : Project Nat Nat} {s : Sys0} (h : Narrow P s) {m : Mini} {b : Bool} (hm : okB b P s m = true) : Narrow P (step X s (m.cmd P)) := by
  cases m with
  | edit i n c => exact narrow_put h fun σ hs => h i σ hs
  | start i fl =>
    refine narrow_put h fun σ hs => ?_
    simp only [Option.some.injEq] at hs
    subst hs
    exact ⟨rfl, fun _ _ => rfl⟩
  | begin i g =>
    simp only [okB, Bool.and_eq_true, decide_eq_true_eq] at hm
    simp only [Mini.cmd, step]
    split
    · exact h
    · rename_i σ hs
      refine narrow_put h fun σ' hs' => ?_
      simp only [Option.some.injEq] at hs'
      subst hs'
      have hF := begin_frame X g (s.tree i).files σ
      exact ⟨hF.proj.trans (h i σ hs).1, fun g' hg' => by rw [hF.jobs g' (by omega)]; exact (h i σ hs).2 g' hg'⟩
  | advance i g =>
    simp only [Mini.cmd, step]
    split
    · exact h
    · rename_i σ hs
      split
      · exact h
      · rename_i j hj
        intro k σ' hs'
        refine narrow_put h (i := i) (T := { s.tree i with files := (advanceTask X g j (s.tree i).files σ s.cache).1, sess := some (advanceTask X g j (s.tree i).files σ s.cache).2.1 }) (fun σ' hs' => ?_) k σ' hs'
        simp only [Option.some.injEq] at hs'
        subst hs'
        have hg : ¬ 2 ≤ g := fun hg => by rw [(h i σ hs).2 g hg] at hj; cases hj
        exact ⟨advance_jobs.1.trans (h i σ hs).1, fun g' hg' => by rw [advance_jobs.2 g' (by omega)]; exact (h i σ hs).2 g' hg'⟩
  | finish i =>
    simp only [Mini.cmd, step]
    split
    · exact h
    · exact narrow_put h fun σ' hs' => by cases hs'
  | kill i => exact narrow_put h fun σ' hs' => by cases hs'

theorem ok_allowed {P : Project Nat Nat} (hW : WellFormed P) (h2 : ∀ g, 2 ≤ g → P.targets g = []) {s : Sys0} (h : Narrow P s) {m : Mini} {b : Bool} (hm : okB b P s m = true) :
    Allowed s (m.cmd P) := by
  cases m with
  | edit i n c =>
    simp only [okB, Option.isNone_iff_eq_none] at hm
    exact hm
  | start i fl =>
    simp only [okB, Bool.and_eq_true, Option.isNone_iff_eq_none] at hm
    exact ⟨hm.1, hW⟩
  | begin i g =>
    intro σ hs
    simp only [okB, hs, Bool.and_eq_true, Option.isNone_iff_eq_none, Bool.not_eq_true', List.all_eq_true, Bool.or_eq_true, List.contains_eq_mem, decide_eq_false_iff_not, decide_eq_true_eq] at hm
    refine ⟨hm.2.1.1, hm.2.1.2, ?_⟩
    rw [(h i σ hs).1]
    intro k hk g' hg'
    have hlt : g' < 2 := by
      by_contra hx
      rw [h2 g' (by omega)] at hg'
      cases hg'
    rcases hm.2.2 k hk g' (by simp; omega) with hx | hx
    · exact absurd hg' hx
    · exact hx
  | advance i g => trivial
  | finish i =>
    intro σ hs g
    simp only [okB, hs, Bool.and_eq_true, Option.isNone_iff_eq_none] at hm
    match g with
    | 0 => exact hm.1
    | 1 => exact hm.2
    | g + 2 => exact (h i σ hs).2 _ (by omega)
  | kill i => trivial

theorem ok_polite {P : Project Nat Nat} {s : Sys0} {m : Mini} (hm : okB true P s m = true) : Polite s (m.cmd P) := by
  cases m with
  | start i fl =>
    intro hf
    simp only [okB, hf, Bool.and_eq_true] at hm
    simpa using hm.2
  | _ => trivial

theorem steps_run {X : X0} {P : Project Nat Nat} (hW : WellFormed P) (h2 : ∀ g, 2 ≤ g → P.targets g = []) (b : Bool) (l : List Mini) {s0 s : Sys0} {l0 : List Cmd0}
    (h0 : Steps X (if b then Polite else fun _ _ => True) s0 l0 s) (hn : Narrow P s) (hl : allOk b X P s l = true) :
    Steps X (if b then Polite else fun _ _ => True) s0 (l0 ++ l.map (·.cmd P)) (run X P s l) := by
  induction l generalizing s l0 with
  | nil => simpa [run] using h0
  | cons m l ih =>
    simp only [allOk, Bool.and_eq_true] at hl
    have := ih (l0 := l0 ++ [m.cmd P]) (.tail h0 (ok_allowed hW h2 hn hl.1) ?_) (step_narrow hn hl.1) hl.2
    · simpa [run] using this
    · cases b
      · trivial
      · exact ok_polite hl.1

/-- An empty world whose trees have the same sources. -/
def world (src : Node → Option Nat) : Sys0 := ⟨fun _ => ⟨src, fun _ => none, true, none⟩, fun _ => none⟩

theorem world_fresh (src : Node → Option Nat) : Fresh (world src) := ⟨fun _ _ => rfl, fun _ => rfl, fun _ => rfl, fun _ => rfl⟩

theorem world_narrow (src : Node → Option Nat) (P : Project Nat Nat) : Narrow P (world src) := fun i σ hs => by simp [world] at hs

theorem reach_run {X : X0} {P : Project Nat Nat} (hW : WellFormed P) (h2 : ∀ g, 2 ≤ g → P.targets g = []) (b : Bool) {src : Node → Option Nat} (l : List Mini)
    (hl : allOk b X P (world src) l = true) : Reach X (if b then Polite else fun _ _ => True) (run X P (world src) l) :=
  ⟨_, _, world_fresh src, by simpa using steps_run hW h2 b l (.refl _) (world_narrow src P) hl⟩

/-! ## A project of two tasks -/

/-- Actions add up what they read. -/
def adder : X0 where
  exec a ins := some fun n => some (1000 * a + 10 * ((ins.map (·.2)).map fun o => o.getD 0).sum + n)
  h := id
  hA a := some a
  key l a n := (l, a, n)

theorem adder_noclash : NoClash adder := ⟨fun _ _ h => h, fun _ _ h => Option.some.inj h, fun _ _ _ _ _ _ h => by simp only [adder, Prod.mk.injEq] at h; exact h⟩

theorem adder_blind : NameBlind adder := fun a ins ins' h => by simp only [adder, h]

/-- `10` is made of `1`; `11` and `12` are made of `10` and `2`. -/
def two : Project Nat Nat where
  targets g := match g with | 0 => [10] | 1 => [11, 12] | _ => []
  deps g _ := match g with | 0 => [1] | 1 => [10, 2] | _ => []
  act g := g
  nocache _ := false

theorem two_none : ∀ g, 2 ≤ g → two.targets g = [] := fun g hg => by
  match g with
  | 0 => omega
  | 1 => omega
  | g + 2 => rfl

theorem two_wf : WellFormed two := by
  refine ⟨fun n g g' h h' => ?_, fun _ _ _ _ _ => rfl⟩
  match g, g' with
  | 0, 0 => rfl
  | 0, 1 =>
    simp only [two, List.mem_cons, List.not_mem_nil, or_false] at h h'
    subst h
    rcases h' with h' | h' <;> cases h'
  | 1, 0 =>
    simp only [two, List.mem_cons, List.not_mem_nil, or_false] at h h'
    subst h'
    rcases h with h | h <;> cases h
  | 1, 1 => rfl
  | g + 2, _ => simp [two] at h
  | _, g + 2 => simp [two] at h'

def src : Node → Option Nat := fun n => match n with | 1 => some 3 | 2 => some 4 | _ => none

def on : Flags := ⟨true, false, false⟩
def off : Flags := ⟨false, false, false⟩
def forceOn : Flags := ⟨true, false, true⟩

/-- A task from beginning to end (too many steps do no harm). -/
def whole (i g : Nat) : List Mini := .begin i g :: List.replicate 7 (.advance i g)

/-- Both trees build task 0 at the same time, step by step: neither finds it in the cache, both execute the action, and the second one finds the file pushed. -/
def race : List Mini := [.start 0 on, .start 1 on, .begin 0 0, .begin 1 0] ++ (List.replicate 6 [Mini.advance 0 0, .advance 1 0]).flatten

/-- Then tree 0 does the rest, and tree 1 retrieves it. -/
def rest : List Mini := whole 0 1 ++ whole 1 1

/-- The hypotheses of `C110_correct_partial` are met: tree 1 has done both tasks, executed only one of them, and has the files of tree 0. -/
theorem C110_example : Reach adder Polite (run adder two (world src) (race ++ rest)) ∧
    (((run adder two (world src) (race ++ rest)).tree 1).sess.map fun σ => (σ.done, σ.exed)) = some ([1, 0], [0]) ∧
    ((run adder two (world src) (race ++ rest)).tree 1).clean = true ∧
    ([10, 11, 12].map ((run adder two (world src) (race ++ rest)).tree 1).files) = [some 40, some 1451, some 1452] := by
  refine ⟨?_, by decide +kernel, by decide +kernel, by decide +kernel⟩
  exact reach_run two_wf two_none true (race ++ rest) (by decide +kernel)

/-- The hypotheses of `C110_second_tree` are met: tree 0 builds everything from scratch, then tree 1 builds everything. -/
theorem C110_example_second : allOk true adder two (world src) ([.start 0 on] ++ whole 0 0 ++ whole 0 1 ++ [.start 1 on] ++ whole 1 0 ++ whole 1 1) = true ∧
    (((run adder two (world src) ([.start 0 on] ++ whole 0 0 ++ whole 0 1)).tree 0).sess.map fun σ => (σ.done, σ.exed)) = some ([1, 0], [1, 0]) ∧
    (((run adder two (world src) ([.start 0 on] ++ whole 0 0 ++ whole 0 1 ++ [.start 1 on] ++ whole 1 0 ++ whole 1 1)).tree 1).sess.map fun σ => (σ.done, σ.exed)) = some ([1, 0], []) := by
  refine ⟨by decide +kernel, by decide +kernel, by decide +kernel⟩

/-- The hypotheses of `C110_null_build` are met: the build ends, and the next one does both tasks and executes nothing. -/
theorem C110_example_null : allOk true adder two (world src) ([.start 0 on] ++ whole 0 0 ++ whole 0 1 ++ [.finish 0, .start 0 off] ++ whole 0 0 ++ whole 0 1) = true ∧
    (((run adder two (world src) ([.start 0 on] ++ whole 0 0 ++ whole 0 1 ++ [.finish 0, .start 0 off] ++ whole 0 0 ++ whole 0 1)).tree 0).sess.map fun σ => (σ.done, σ.exed)) = some ([1, 0], []) := by
  refine ⟨by decide +kernel, by decide +kernel⟩

/-- One of two targets was removed from the cache: the other one is retrieved, removed again, and both are made. -/
theorem C110_example_partial :
    let s := run adder two (world src) ([.start 0 on] ++ whole 0 0 ++ whole 0 1)
    let s' := step adder s (.drop (keyOf adder (recOf adder two (s.tree 0).files 1) 12))
    (((run adder two s' ([.start 1 on] ++ whole 1 0 ++ whole 1 1)).tree 1).sess.map fun σ => (σ.done, σ.exed)) = some ([1, 0], [1]) ∧
    ([10, 11, 12].map ((run adder two s' ([.start 1 on] ++ whole 1 0 ++ whole 1 1)).tree 1).files) = [some 40, some 1451, some 1452] := by
  decide +kernel

/-! ## What goes wrong -/

/-- Actions that write the names of what they read (`ls *.txt > list`). -/
def lister : X0 where
  exec _ ins := some fun _ => some (ins.map (·.1)).sum
  h := id
  hA a := some a
  key l a n := (l, a, n)

/-- `10` depends on the file of the directory: `2`, or else `3`. -/
def globbed : Project Nat Nat where
  targets g := match g with | 0 => [10] | _ => []
  deps g v := match g with | 0 => if (v 2).isSome then [2] else [3] | _ => []
  act g := g
  nocache _ := false

theorem globbed_none : ∀ g, 2 ≤ g → globbed.targets g = [] := fun g hg => by
  match g with
  | 0 => omega
  | 1 => omega
  | g + 2 => rfl

theorem globbed_wf : WellFormed globbed := by
  refine ⟨fun n g g' h h' => ?_, fun g v v' h1 _ => ?_⟩
  · match g, g' with
    | 0, 0 => rfl
    | 0, g + 1 => simp [globbed] at h'
    | g + 1, _ => simp [globbed] at h
  · match g with
    | 0 =>
      simp only [globbed]
      rw [h1 2 fun g' => by match g' with | 0 => simp [globbed] | g' + 1 => simp [globbed]]
    | g + 1 => rfl

/-- A file is renamed between two builds. -/
def renamed (fl : Flags) : List Mini := [.start 0 fl] ++ whole 0 0 ++ [.finish 0, .edit 0 2 none, .edit 0 3 (some 4), .start 0 fl] ++ whole 0 0

/-- **C110, counterexample: names of dependencies.**  The names of the dependencies are not part of the name of the cache file (FS.py 3692-3719).  An action that reads the names (and not only from its
command line) makes something else after a dependency was renamed; SCons sees the change, asks the cache and retrieves the old file.  Without the cache the action is executed. -/
theorem C110_renamed_counterexample : NoClash lister ∧ Reach lister Polite (run lister globbed (world src) (renamed on)) ∧
    ((run lister globbed (world src) (renamed on)).tree 0).clean = true ∧
    (((run lister globbed (world src) (renamed on)).tree 0).sess.map fun σ => (σ.done, σ.exed)) = some ([0], []) ∧
    ((run lister globbed (world src) (renamed on)).tree 0).files 10 = some 2 ∧
    ((run lister globbed (world src) (renamed off)).tree 0).files 10 = some 3 := by
  refine ⟨⟨fun _ _ h => h, fun _ _ h => Option.some.inj h, fun _ _ _ _ _ _ h => by simp only [lister, Prod.mk.injEq] at h; exact h⟩, ?_, by decide +kernel, by decide +kernel, by decide +kernel, by decide +kernel⟩
  exact reach_run globbed_wf globbed_none true (renamed on) (by decide +kernel)

/-- Somebody edits a target by hand, then builds with `--cache-force`; somebody else builds the same project. -/
def poisoned : List Mini := [.start 0 off] ++ whole 0 0 ++ [.finish 0, .edit 0 10 (some 99), .start 0 forceOn] ++ whole 0 0 ++ [.finish 0, .start 1 on] ++ whole 1 0

/-- **C110, counterexample: `--cache-force`.**  It pushes targets that are up to date, and nobody looks at the content of a target: what was edited by hand in one tree is retrieved by all. -/
theorem C110_force_counterexample : Reach adder (fun _ _ => True) (run adder two (world src) poisoned) ∧
    ((run adder two (world src) poisoned).tree 1).clean = true ∧
    (((run adder two (world src) poisoned).tree 1).sess.map fun σ => (σ.done, σ.exed)) = some ([0], []) ∧
    ((run adder two (world src) poisoned).tree 1).files 10 = some 99 ∧
    (adder.exec (two.act 0) (inputs two ((run adder two (world src) poisoned).tree 1).files 0)).map (fun f => f 10) = some (some 40) := by
  refine ⟨?_, by decide +kernel, by decide +kernel, by decide +kernel, by decide +kernel⟩
  exact reach_run two_wf two_none false poisoned (by decide +kernel)

/-- A source is edited, the build is killed after the target was made, the edit is undone. -/
def killed : List Mini := [.start 0 off] ++ whole 0 0 ++ [.finish 0, .edit 0 1 (some 7), .start 0 off] ++ whole 0 0 ++ [.kill 0, .edit 0 1 (some 3), .start 0 off] ++ whole 0 0

/-- **C110, counterexample: killed builds.**  The signatures are written at the end: after a kill the tree has new files with old records (with a cache or without one), and if the edit is undone,
the wrong target is up to date.  With `--cache-force` it would get into the cache. -/
theorem C110_killed_counterexample : Reach adder Polite (run adder two (world src) killed) ∧
    (((run adder two (world src) killed).tree 0).sess.map fun σ => (σ.done, σ.exed)) = some ([0], []) ∧
    ((run adder two (world src) killed).tree 0).files 10 = some 80 ∧
    (adder.exec (two.act 0) (inputs two ((run adder two (world src) killed).tree 0).files 0)).map (fun f => f 10) = some (some 40) := by
  refine ⟨?_, by decide +kernel, by decide +kernel, by decide +kernel⟩
  exact reach_run two_wf two_none true killed (by decide +kernel)

end Verif.CacheSys.Ex
