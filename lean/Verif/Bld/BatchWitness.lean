import Verif.Bld.BatchProps

/-!
# C77: batch builds — cases
-/

namespace Verif.Batch.Ex

/-- Signatures. -/
abbrev S := Option (Option (Nat × Bool)) × List Nat × List Nat

/-- Contents are numbers: a source is any number, a target of one dependency with content `n` is `100 + n`. -/
def X (cached : Bool) : Tools Nat Nat Nat S where
  make _ _ ds := 100 + (ds.head?.bind id).getD 0
  ok _ _ _ := true
  h x := (some (x.map fun n => (n, false)), [], [])
  hA a ts ss := (some (some (a, true)), ts, ss)
  cached := cached

theorem noClash (c : Bool) : NoClash (X c) := by
  constructor
  · intro x y h; cases x <;> cases y <;> simp_all [X]
  · intro a ts ss a' ts' ss' h; simp_all [X]

/-- Files 1, 2 are sources, 11 and 12 (and 13) targets. -/
def two (m : Mode) : Exec Nat Nat := { batches := [⟨[11], [1]⟩, ⟨[12], [2]⟩], shared := [], act := 0, mode := m, use := .changed, precious := fun _ => false, always := fun _ => false, nocache := fun _ => false }

def empty : World Nat Nat S := ⟨fun v => if v = 1 then some 1 else if v = 2 then some 2 else none, fun _ => none, fun _ => none⟩

theorem honest_empty (c : Bool) : Honest (X c) empty := by constructor <;> intros <;> simp_all [empty]

theorem sane_two (m : Mode) : Sane (two m) := by
  constructor
  · intro t ht d hd
    simp only [two, Exec.allTargets, List.flatMap_cons, List.flatMap_nil, List.append_nil, List.cons_append, List.nil_append, List.mem_cons, List.not_mem_nil, or_false] at ht
    rcases ht with rfl | rfl
    · simp [two, Exec.deps, Exec.sourcesOf] at hd; subst hd; cases m <;> decide
    · simp [two, Exec.deps, Exec.sourcesOf] at hd; subst hd; cases m <;> decide
  · intro b hb; simp [two] at hb; rcases hb with rfl | rfl <;> simp

/-- The first build. -/
def W1 (c : Bool) (m : Mode) : World Nat Nat S := (runTask (X c) (two m) empty).1

/-- The second source is edited. -/
def edit (W : World Nat Nat S) (v c : Nat) : World Nat Nat S := { W with fs := fun x => if x = v then some c else W.fs x }

/-- Both targets are built; after an edit of the second source only this source is given to the command, the first target is as before, and both are right. -/
theorem C77_nonvacuous :
    (runTask (X false) (two .changed) empty).2 = .ran [1, 2] ∧
    (runTask (X false) (two .changed) (edit (W1 false .changed) 2 7)).2 = .ran [2] ∧
    (runTask (X false) (two .changed) (edit (W1 false .changed) 2 7)).1.fs 11 = some 101 ∧
    (runTask (X false) (two .changed) (edit (W1 false .changed) 2 7)).1.fs 12 = some 107 ∧
    (runTask (X false) (two .targets) (edit (W1 false .targets) 2 7)).2 = .ran [1, 2] ∧
    (runTask (X false) (two .changed) (W1 false .changed)).2 = .current ∧
    Honest (X false) empty ∧ NoClash (X false) ∧ Sane (two .changed) ∧ Good (X false) (two .changed) empty := by
  refine ⟨by decide +kernel, by decide +kernel, by decide +kernel, by decide +kernel, by decide +kernel, by decide +kernel, honest_empty _, noClash _, sane_two _,
    .led rfl (single_led fun b hb => ?_) nofun⟩
  simp [two] at hb; rcases hb with rfl | rfl <;> exact ⟨_, rfl⟩

/-- **C77 fails with a cache.**  After both targets were built (and pushed to the cache) the second source is edited.  The first target, which is up to date, is retrieved from the cache, the second is
not there, so what was retrieved is removed; the command compiles only the second source.  The first target is gone, and the task has succeeded. -/
theorem C77_cache_removes_target :
    (W1 true .changed).fs 11 = some 101 ∧
    (runTask (X true) (two .changed) (edit (W1 true .changed) 2 7)).2 = .ran [2] ∧
    (runTask (X true) (two .changed) (edit (W1 true .changed) 2 7)).1.fs 11 = none ∧
    (runTask (X true) (two .changed) (edit (W1 true .changed) 2 7)).1.fs 12 = some 107 := by
  refine ⟨by decide +kernel, by decide +kernel, by decide +kernel, by decide +kernel⟩

/-- One batch with two targets, and one with one. -/
def pair (m : Mode) (prec : Nat → Bool) : Exec Nat Nat :=
  { batches := [⟨[11, 13], [1]⟩, ⟨[12], [2]⟩], shared := [], act := 0, mode := m, use := .changed, precious := prec, always := fun _ => false, nocache := fun _ => false }

def W2 (m : Mode) (prec : Nat → Bool) : World Nat Nat S := (runTask (X false) (pair m prec) empty).1

/-- The second target of the first batch is deleted. -/
def lost (W : World Nat Nat S) : World Nat Nat S := { W with fs := fun x => if x = 13 then none else W.fs x }

/-- **C77 fails for batches with several targets.**  The second target of a batch is missing: the task is executed, with no sources at all, because only the first target of each batch is looked
at; the missing target stays missing. -/
theorem C77_second_target_ignored :
    (W2 .changed fun _ => false).fs 13 = some 101 ∧
    (runTask (X false) (pair .changed fun _ => false) (lost (W2 .changed fun _ => false))).2 = .ran [] ∧
    (runTask (X false) (pair .changed fun _ => false) (lost (W2 .changed fun _ => false))).1.fs 13 = none := by
  refine ⟨by decide +kernel, by decide +kernel, by decide +kernel⟩

/-- The record of the second target is out of date (say, it was restored from elsewhere with its own `.sconsign` entry for another content of the source). -/
def old (W : World Nat Nat S) : World Nat Nat S :=
  { W with fs := fun x => if x = 13 then some 105 else W.fs x, db := fun x => if x = 13 then some ⟨[(X false).h (some 5)], (pair .changed fun _ => false).actSig (X false)⟩ else W.db x }

theorem sane_pair (m : Mode) (p : Nat → Bool) : Sane (pair m p) := by
  constructor
  · intro t ht d hd
    simp only [pair, Exec.allTargets, List.flatMap_cons, List.flatMap_nil, List.append_nil, List.cons_append, List.nil_append, List.mem_cons, List.not_mem_nil, or_false] at ht
    rcases ht with rfl | rfl | rfl <;> simp [pair, Exec.deps, Exec.sourcesOf] at hd <;> subst hd <;> simp [pair, Exec.allTargets]
  · intro b hb; simp [pair] at hb; rcases hb with rfl | rfl <;> simp

theorem honest_W2 : Honest (X false) (W2 .changed fun _ => false) := by
  have hg : Good (X false) (pair .changed fun _ => false) empty := by
    refine .led rfl ?_ nofun
    intro b hb t ts e u hu ho
    refine Or.inr (Or.inl ?_)
    simp [pair] at hb; rcases hb with rfl | rfl <;> cases e <;> rfl
  have hd : (runTask (X false) (pair .changed fun _ => false) empty).2 = .ran [1, 2] := by decide +kernel
  have hr : runTask (X false) (pair .changed fun _ => false) empty = (W2 .changed fun _ => false, .ran [1, 2]) := Prod.ext rfl hd
  exact (correct_deps (noClash _) (honest_empty _) (sane_pair _ _) hg hr nofun).2.2

theorem honest_old : Honest (X false) (old (W2 .changed fun _ => false)) := by
  constructor
  · intro t c a ts ss ds h1 h2
    by_cases ht : t = 13
    · subst ht
      simp only [old, if_true, Option.some.injEq, Rec.mk.injEq] at h1 h2
      have : ds = [some 5] := (map_inj (noClash false) (l := [some 5]) (by simpa using h2.1)).symm
      subst this; subst h1; rfl
    · simp only [old, ht, if_false] at h1 h2
      exact honest_W2.file t c a ts ss ds h1 h2
  · exact honest_W2.cache

/-- **C77: and it stays wrong.**  A second target with the record of another content of its source, and made from it, is not rebuilt, but recorded as made from the present content: the world was
honest and is not afterwards, and the next run finds everything up to date. -/
theorem C77_second_target_stale :
    Honest (X false) (old (W2 .changed fun _ => false)) ∧
    ¬ Honest (X false) (runTask (X false) (pair .changed fun _ => false) (old (W2 .changed fun _ => false))).1 ∧
    (old (W2 .changed fun _ => false)).fs 13 = some 105 ∧
    (runTask (X false) (pair .changed fun _ => false) (old (W2 .changed fun _ => false))).2 = .ran [] ∧
    (runTask (X false) (pair .changed fun _ => false) (old (W2 .changed fun _ => false))).1.fs 13 = some 105 ∧
    (runTask (X false) (pair .changed fun _ => false) (old (W2 .changed fun _ => false))).1.fs 1 = some 1 ∧
    (runTask (X false) (pair .changed fun _ => false) (runTask (X false) (pair .changed fun _ => false) (old (W2 .changed fun _ => false))).1).2 = .current := by
  refine ⟨honest_old, fun h => ?_, by decide +kernel, by decide +kernel, by decide +kernel, by decide +kernel, by decide +kernel⟩
  have h1 := h.file 13 105 0 [11, 13, 12] [1, 2] [some 1] (by decide +kernel) (by decide +kernel)
  exact absurd h1 (by decide)

/-- **C77 fails for precious targets.**  With the default `$TARGETS`, the first target of a batch precious, the second not: when another batch has changed all targets are prepared, the second is
removed, the first is kept and up to date, and so its batch is not given to the command: the second target is gone. -/
theorem C77_precious_first :
    (W2 .targets fun v => v == 11).fs 13 = some 101 ∧
    (runTask (X false) (pair .targets fun v => v == 11) (edit (W2 .targets fun v => v == 11) 2 7)).2 = .ran [2] ∧
    (runTask (X false) (pair .targets fun v => v == 11) (edit (W2 .targets fun v => v == 11) 2 7)).1.fs 13 = none := by
  refine ⟨by decide +kernel, by decide +kernel, by decide +kernel⟩

/-- **C77: a call that is repeated.**  The same call made twice (which is allowed: the target has the same builder and the same sources) adds its batch twice, and the source is on the command
line twice. -/
theorem C77_repeated_call :
    executors (K := Nat) (V := Nat) [(some 0, ⟨[11], [1]⟩), (some 0, ⟨[12], [2]⟩), (some 0, ⟨[11], [1]⟩), (none, ⟨[14], [1]⟩)] =
      [(some 0, [⟨[11], [1]⟩, ⟨[12], [2]⟩, ⟨[11], [1]⟩]), (none, [⟨[14], [1]⟩])] ∧
    (runTask (X false) { two .changed with batches := [⟨[11], [1]⟩, ⟨[12], [2]⟩, ⟨[11], [1]⟩] } empty).2 = .ran [1, 2, 1] := by
  refine ⟨by decide +kernel, by decide +kernel⟩

/-- **C77: the suffix.**  A target with another suffix than `.obj` is compiled with the others, and never written. -/
theorem C77_msvc_suffix :
    msvcKey ⟨"out".toList, "a".toList, ".o2".toList⟩ ⟨"src".toList, "a".toList, ".c".toList⟩ = msvcKey ⟨"out".toList, "b".toList, ".obj".toList⟩ ⟨"src".toList, "b".toList, ".c".toList⟩ ∧
    msvcOutput "out".toList ⟨"src".toList, "a".toList, ".c".toList⟩ = ⟨"out".toList, "a".toList, ".obj".toList⟩ := by decide +kernel

end Verif.Batch.Ex
