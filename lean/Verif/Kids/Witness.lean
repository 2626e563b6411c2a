import Verif.Kids.Props

/-!
# C94: an applied case, and the counterexample
-/

namespace Verif.Kids.Ex

/-- Nodes 0 and 1 are built together, node 2 alone; the others are sources. -/
def conf : Conf Nat Nat where
  exec := fun t => if t = 0 ∨ t = 1 then some 0 else if t = 2 then some 1 else none
  targets := fun x => if x = 0 then [0, 1] else if x = 1 then [2] else []

theorem conf_ok : conf.Ok := by
  intro t x
  simp only [conf]
  by_cases h : t = 0 ∨ t = 1
  · simp only [h, if_true, Option.some.injEq]
    by_cases e : x = 0
    · subst e; simpa using h
    · have e' : ¬ 0 = x := fun a => e a.symm
      simp only [e, e', if_false, false_iff]
      split
      · simp; omega
      · simp
  · simp only [h, if_false]
    by_cases e2 : t = 2
    · subst e2
      simp only [if_true, Option.some.injEq]
      by_cases e : x = 0
      · subst e; simp
      · by_cases e' : x = 1
        · subst e'; simp
        · have : ¬ 1 = x := fun a => e' a.symm
          simp [e, e', this]
    · simp only [e2, if_false]
      by_cases e : x = 0
      · subst e; simp; omega
      · by_cases e' : x = 1
        · subst e'; simpa using e2
        · simp [e, e']

/-- Everything is asked before and after it is said: a call with two sources, one of them twice, a
second call, a dependency, files that were found, recorded ones that were out of date,
and two of all of these ignored. -/
def history : List (Op Nat Nat) :=
  [.children 0, .sources 0, .call 0 [10, 11, 10], .children 0, .sources 0, .sources 1, .call 0 [12, 10],
   .depends 0 [13, 11], .children 0, .scan 0, .found 0 [20, 10], .children 0, .children 1, .rescan 0 [21, 20], .children 0,
   .sources 0, .ignore 0 [11, 21], .call 1 [0], .children 2]

theorem applied_children : (childrenGet (run conf St.init history) 0).1 = [10, 12, 13, 20] := by
  rw [C94_children_partial conf conf_ok history (by intro x; simp [history]) 0]
  decide

theorem applied_sources : firsts (unignored conf (run conf St.init history) 0 0).1 = [10, 12] := by
  rw [C94_sources_partial conf conf_ok history (by intro x; simp [history]) 0 0 (by decide)]
  decide

/-- The other target of the same call. -/
theorem applied_other : (childrenGet (run conf St.init history) 1).1 = [10, 11, 12, 21, 20] := by
  rw [C94_children_partial conf conf_ok history (by intro x; simp [history]) 1]
  decide

/-- What is missing: with `--implicit-cache`, when recorded dependencies are out of date and the
scan then finds nothing (the source no longer includes anything), the old header stays a child
of the target: `scan` empties the list without forgetting the answer of `children`. -/
def stale : List (Op Nat Nat) := [.call 0 [10], .scan 0, .found 0 [20], .children 0, .rescan 0 []]

theorem stale_child : (childrenGet (run conf St.init stale) 0).1 = [10, 20]
    ∧ saidFound conf 0 stale = [] ∧ saidSources conf 0 stale = [10] := by decide

end Verif.Kids.Ex
