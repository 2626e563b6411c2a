import Verif.Decide.Props

/-!
# C95: an applied case, and counterexamples
-/

namespace Verif.Decide.Ex

/-- Nodes below 10 are files, 10 is an alias, 11 an entry, the others are values. -/
def kind (n : Nat) : Kind := if n < 10 then .file else if n = 10 then .alias else if n = 11 then .entry else .value

/-- From the last to the first: see the comments. User functions are numbers. -/
def history : List (Op Nat) :=
  [.decider 1 (.func 7),              -- after its targets were declared
   .decider 0 (.name "make"),         -- Decider('make')
   .nodeDecider 5 8,                  -- a source with a function of its own
   .morph 11 .dir,
   .build 4 [2],                      -- through an override of the clone
   .override 2 4,
   .build 3 [1],                      -- through an environment without a function
   .build 1 [0],
   .decider 2 (.name "content"),
   .new 3,
   .clone 1 2,                        -- gets timestamp-match
   .decider 1 (.name "timestamp-match"),
   .new 1]

theorem plain : Plain kind history := by simp [history, Plain, isOverride, made, own, kindOf, kind]

def answers : List (By Nat) :=
  [decidedBy (run kind history) 0 6, decidedBy (run kind history) 1 6, decidedBy (run kind history) 2 6,
   decidedBy (run kind history) 2 0, decidedBy (run kind history) 0 5, decidedBy (run kind history) 0 11, decidedBy (run kind history) 0 10,
   decidedBy (run kind history) 0 12]

theorem applied : answers = [.fn (.user 7), .fn .newer, .fn .content, .fn .content, .fn (.user 8), .fixed .dir, .fixed .alias, .fixed .value] := by
  simp only [answers]
  rw [C95_who_decides_partial kind history plain 0 6 (by decide), C95_who_decides_partial kind history plain 1 6 (by decide),
    C95_who_decides_partial kind history plain 2 6 (by decide), C95_who_decides_partial kind history plain 2 0 (by decide),
    C95_who_decides_partial kind history plain 0 5 (by decide), C95_who_decides_partial kind history plain 0 11 (by decide),
    C95_who_decides_partial kind history plain 0 10 (by decide), C95_who_decides_partial kind history plain 0 12 (by decide)]
  decide

theorem applied_cache : freshFromCache (run kind (.decider 1 (.name "timestamp-newer") :: history)) 0 = true := by
  rw [C95_time_from_cache_partial kind _ (by simp [history, Plain, isOverride, made, own, kindOf, kind]) (by intro e n hm; simp [history] at hm; rcases hm with ⟨_, rfl⟩ | ⟨_, rfl⟩ | ⟨_, rfl⟩ | ⟨_, rfl⟩ <;> rfl) 0 1 (by decide) (by decide)]
  decide

/-- `Decider` of an override environment changes the environment that it overrides, and so every target
built with that. -/
theorem override_leaks :
    decidedBy (run kind [.decider 2 (.func 9), .override 1 2, .build 1 [0], .new 1]) 0 6 = .fn (.user 9)
    ∧ should kind ([.decider 2 (.func 9), .override 1 2, .build 1 [0], .new 1] : List (Op Nat)) 0 6 = .fn .content := by decide

/-- A function given to a file is lost when the file becomes a target. -/
theorem lost_by_builder :
    decidedBy (run kind [.build 1 [1], .build 1 [0], .nodeDecider 0 9, .new 1]) 1 0 = .fn .content
    ∧ should kind ([.build 1 [1], .build 1 [0], .nodeDecider 0 9, .new 1] : List (Op Nat)) 1 0 = .fn (.user 9) := by decide

/-- And when an entry turns out to be a file. -/
theorem lost_by_entry :
    decidedBy (run kind [.morph 11 .file, .build 1 [1], .nodeDecider 11 9, .new 1]) 1 11 = .fn .content
    ∧ should kind ([.morph 11 .file, .build 1 [1], .nodeDecider 11 9, .new 1] : List (Op Nat)) 1 11 = .fn (.user 9) := by decide

/-- With `Decider('timestamp-newer')` for all environments (as a global function), targets of other environments
are decided by it, but files from the cache keep their old times: they are older than their sources, and
out of date in the next run. -/
theorem cache_time_of_default :
    decidedBy (run kind [.build 1 [0], .new 1, .decider 0 (.name "timestamp-newer")]) 0 6 = (.fn .newer : By Nat)
    ∧ freshFromCache (run kind ([.build 1 [0], .new 1, .decider 0 (.name "timestamp-newer")] : List (Op Nat))) 0 = false := by decide

/-- An unknown name is refused, but what is done with the times of files from the cache has changed. -/
theorem unknown_name :
    decidedBy (run kind [.decider 1 (.name "newer"), .build 1 [0], .decider 1 (.name "make"), .new 1]) 0 6 = (.fn .newer : By Nat)
    ∧ freshFromCache (run kind ([.decider 1 (.name "newer"), .build 1 [0], .decider 1 (.name "make"), .new 1] : List (Op Nat))) 0 = false := by decide

end Verif.Decide.Ex
