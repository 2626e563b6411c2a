import Verif.Bld.PrePostProps
/-!
# C88: a case that meets the hypotheses, and what is missing
-/
namespace Verif.PrePost.Ex

/-- Targets are numbers, actions are strings. -/
abbrev P := List (Stmt Nat String)

/-- Two targets of one call; another builder in between; actions for both, for one, and for
neither. -/
def after : P :=
  [.pre [1, 2] "mkdir", .call [5] "other" false, .post [2] "strip", .pre [5] "unrelated", .pre [1] "echo",
   .post [1, 5, 2] "sign"]

theorem C88_applied : (St.init.run ([.call [5] "x" false] ++ .call [1, 2] "link" false :: after)).actions 2 =
    ["mkdir", "echo", "link", "strip", "sign"] := by
  rw [C88_before_and_after_partial _ after [1, 2] "link" false (by intro h; cases h) (by simp [after, KeepsExecutor]) 2
    (by simp)]
  decide +kernel

/-- A builder that allows several calls. -/
theorem C88_applied_multi :
    (St.init.run ([.call [5] "x" false] ++ .call [1] "tar" true :: [.post [1] "sign", .call [1] "tar" true])).actions 1 =
    ["tar", "sign"] := by
  rw [C88_before_and_after_partial _ _ [1] "tar" true (by simp [Stmt.names])
    (by simp [KeepsExecutor]) 1 (by simp)]
  decide +kernel

/-- **Counterexample** (order): a pre-action asked for before the builder call is forgotten
without a message: the call gives the target a new executor. -/
theorem asked_before_is_lost :
    (St.init.run [.pre [1] "mkdir", .call [1] "link" false] : St Nat String).actions 1 = ["link"] := by
  decide +kernel

/-- **Counterexample** (order, a builder that allows several calls, such as `Tar` or `Zip`):
the target keeps the executor made for the pre-action, which has no action of its own: the
action of the builder is not run at all. -/
theorem asked_before_multi_loses_builder :
    (St.init.run [.pre [1] "mkdir", .call [1] "tar" true] : St Nat String).actions 1 = ["mkdir"] := by
  decide +kernel

/-- **Counterexample** (second call): the same call of an ordinary builder again, as when two
programs name the same source file, takes the added actions away. -/
theorem second_call_forgets :
    (St.init.run [.call [1] "cc" false, .post [1] "sign", .call [1] "cc" false] : St Nat String).actions 1 = ["cc"] := by
  decide +kernel

/-- For every such program the first counterexample holds: nothing asked for before is run. -/
theorem C88_asked_before_never_runs (p : P) (ts : List Nat) (a : String) (t : Nat) (ht : t ∈ ts) :
    (St.init.run (p ++ [.call ts a false])).actions t = [a] := by
  rw [C88_before_and_after_partial p [] ts a false (by intro h; cases h) trivial t ht]
  rfl

end Verif.PrePost.Ex
